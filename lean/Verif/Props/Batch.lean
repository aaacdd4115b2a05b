import Verif.Model.Batch
import Verif.Props.Util
import Mathlib.Tactic.IntervalCases

/-!
# C27, C36: batchers and their ring buffers; C20: sharding; C34: domain extraction
-/
namespace Fpki.Batch

/-! ## Ring lemmas -/

/-- The three slices have different arrays, all allocated. -/
structure WF (r : Ring α) : Prop where
  cur : r.cur < 3
  fresh : ∀ i, i < 3 → (r.elems i).addr < r.next
  distinct : ∀ i j, i < 3 → j < 3 → i ≠ j → (r.elems i).addr ≠ (r.elems j).addr

/-- The array is allocated and not the one being filled. -/
def Off1 (r : Ring α) (a : Nat) : Prop := a < r.next ∧ a ≠ (r.elems r.cur).addr
/-- Neither the one being filled nor the next one. -/
def Off2 (r : Ring α) (a : Nat) : Prop := Off1 r a ∧ a ≠ (r.elems ((r.cur + 1) % 3)).addr

theorem newRing_wf (cap : Nat) : WF (newRing α cap) :=
  ⟨by simp [newRing], fun _ h => h, fun _ _ _ _ h => h⟩

theorem add_wf {r : Ring α} (w : WF r) (x : α) : WF (r.addElem x) := by
  unfold Ring.addElem Ring.setElem Ring.current
  dsimp only
  by_cases h : (r.elems r.cur).len < (r.elems r.cur).cap
  · rw [if_pos h]
    refine ⟨w.cur, fun i hi => ?_, fun i j hi hj hij => ?_⟩
    · have := w.fresh i hi
      dsimp only; split
      · subst_vars; exact this
      · exact this
    · have := w.distinct i j hi hj hij
      dsimp only; split <;> split <;> subst_vars <;> first | exact this | exact absurd rfl hij
  · rw [if_neg h]
    refine ⟨w.cur, fun i hi => ?_, fun i j hi hj hij => ?_⟩
    · have := w.fresh i hi
      dsimp only; split
      · simp
      · omega
    · have := w.distinct i j hi hj hij
      have := w.fresh i hi
      have := w.fresh j hj
      dsimp only; split <;> split <;> subst_vars <;> first | exact absurd rfl hij | (simp; omega) | omega

theorem add_cur (r : Ring α) (x : α) : (r.addElem x).cur = r.cur := by
  unfold Ring.addElem Ring.setElem; dsimp only; split <;> rfl

theorem add_len (r : Ring α) (x : α) : (r.addElem x).current.len = r.current.len + 1 := by
  unfold Ring.addElem Ring.setElem Ring.current; dsimp only; split <;> simp

theorem add_read (r : Ring α) (x : α) :
    read (r.addElem x).heap (r.addElem x).current = read r.heap r.current ++ [some x] := by
  unfold read
  rw [add_len, List.range_succ, List.map_append]
  congr 1
  · apply List.map_congr_left
    intro i hi
    simp only [List.mem_range] at hi
    unfold Ring.addElem Ring.setElem Ring.current at *; dsimp only
    by_cases h : (r.elems r.cur).len < (r.elems r.cur).cap
    · simp only [if_pos h, if_true]
      rw [if_neg (by omega)]
    · simp [if_neg h, hi]
  · unfold Ring.addElem Ring.setElem Ring.current; dsimp only
    by_cases h : (r.elems r.cur).len < (r.elems r.cur).cap
    · simp [h]
    · simp [h]

theorem add_off1 {r : Ring α} {a : Nat} (x : α) (h : Off1 r a) :
    Off1 (r.addElem x) a ∧ ∀ i, (r.addElem x).heap a i = r.heap a i := by
  obtain ⟨h1, h2⟩ := h
  unfold Off1 Ring.addElem Ring.setElem Ring.current
  dsimp only
  by_cases hc : (r.elems r.cur).len < (r.elems r.cur).cap
  · simp only [if_pos hc, if_true]
    exact ⟨⟨h1, h2⟩, fun i => by rw [if_neg]; exact fun h => h2 h.1⟩
  · simp only [if_neg hc, if_true]
    exact ⟨⟨by omega, by omega⟩, fun i => by rw [if_neg]; omega⟩

theorem add_off2 {r : Ring α} {a : Nat} (w : WF r) (x : α) (h : Off2 r a) : Off2 (r.addElem x) a := by
  refine ⟨(add_off1 x h.1).1, ?_⟩
  have := h.2
  rw [add_cur]
  have hne : (r.cur + 1) % 3 ≠ r.cur := by have := w.cur; omega
  unfold Ring.addElem Ring.setElem Ring.current
  dsimp only
  split <;> simpa [hne] using this

theorem rot_wf {r : Ring α} (w : WF r) : WF r.rotate := by
  have := w.cur
  unfold Ring.rotate Ring.setElem
  refine ⟨by simp [ringCacheN]; omega, fun i hi => ?_, fun i j hi hj hij => ?_⟩
  · have := w.fresh i hi
    dsimp only; split
    · subst_vars; exact this
    · exact this
  · have := w.distinct i j hi hj hij
    dsimp only; split <;> split <;> subst_vars <;> first | exact this | exact absurd rfl hij

theorem rot_cur (r : Ring α) : r.rotate.cur = (r.cur + 1) % 3 := rfl

theorem rot_addr (r : Ring α) (i : Nat) : (r.rotate.elems i).addr = (r.elems i).addr := by
  unfold Ring.rotate Ring.setElem; dsimp only; split <;> simp_all

theorem rot_len (r : Ring α) : r.rotate.current.len = 0 := by
  simp [Ring.rotate, Ring.setElem, Ring.current]

theorem rot_off {r : Ring α} {a : Nat} (h : Off2 r a) :
    Off1 r.rotate a ∧ ∀ i, r.rotate.heap a i = r.heap a i := by
  obtain ⟨⟨h1, h2⟩, h3⟩ := h
  refine ⟨⟨h1, ?_⟩, fun i => ?_⟩
  · rw [rot_cur, rot_addr]; exact h3
  · unfold Ring.rotate Ring.setElem; dsimp only
    rw [if_neg]; exact fun h => h3 h.1

/-- The slice just filled is neither the one filled next nor the one after. -/
theorem rot_prev {r : Ring α} (w : WF r) :
    Off2 r.rotate r.current.addr ∧ ∀ i, r.rotate.heap r.current.addr i = r.heap r.current.addr i := by
  have hc := w.cur
  have d1 : r.current.addr ≠ (r.elems ((r.cur + 1) % 3)).addr := w.distinct _ _ hc (by omega) (by omega)
  have d2 : r.current.addr ≠ (r.elems (((r.cur + 1) % 3 + 1) % 3)).addr := w.distinct _ _ hc (by omega) (by omega)
  refine ⟨⟨⟨w.fresh _ hc, ?_⟩, ?_⟩, fun i => ?_⟩
  · rw [rot_cur, rot_addr]; exact d1
  · rw [rot_cur, rot_addr]; exact d2
  · unfold Ring.rotate Ring.setElem; dsimp only
    rw [if_neg]; exact fun h => d1 h.1

theorem read_congr {h h' : Heap α} {s : Slice} (e : ∀ i, h' s.addr i = h s.addr i) : read h' s = read h s := by
  simp [read, e]

/-- An end function of a batcher: sends what is left; nothing is sent only when nothing is left. -/
def IsEnd (fin : Ring α → Ring α × Option Slice) : Prop :=
  ∀ r, fin r = (r.rotate, some r.current) ∨ (fin r = (r, none) ∧ r.current.len = 0)

theorem certEnd_isEnd : IsEnd (certEnd (α := α)) := fun _ => .inl rfl
theorem domainEnd_isEnd : IsEnd (domainEnd (α := α)) := fun r => by
  unfold domainEnd
  by_cases h : 0 < r.current.len
  · rw [if_pos h]; exact .inl rfl
  · rw [if_neg h]; exact .inr ⟨rfl, by omega⟩

/-! ## Invariant -/

/-- `full` batches have exactly the batch size, except the last one of all. -/
structure Inv (size : Nat) (input : List α) (s : Sys α) : Prop where
  wf : WF s.ring
  cons : ∀ b, s.cons = .working b → Off1 s.ring b.addr ∧ s.seen = s.got ++ [read s.ring.heap b]
  consFill : ∀ b, s.cons = .working b → s.prod = .filling → Off2 s.ring b.addr
  idle : s.cons = .idle → s.seen = s.got
  filling : s.prod = .filling → s.ring.current.len < size ∧
    s.seen.flatten ++ read s.ring.heap s.ring.current ++ s.input.map some = input.map some ∧
    ∀ b ∈ s.seen, b.length = size
  sending : ∀ b last, s.prod = .sending b last → Off2 s.ring b.addr ∧ s.ring.current.len = 0 ∧ b.len ≤ size ∧
    s.seen.flatten ++ read s.ring.heap b ++ s.input.map some = input.map some ∧
    (last = true → s.input = []) ∧ (last = false → b.len = size) ∧ ∀ b ∈ s.seen, b.length = size
  done : s.prod = .done → s.seen.flatten = input.map some ∧ (∀ b ∈ s.seen, b.length ≤ size) ∧
    ∀ b ∈ s.seen.dropLast, b.length = size

theorem read_length (h : Heap α) (s : Slice) : (read h s).length = s.len := by simp [read]

theorem read_zero (h : Heap α) {s : Slice} (e : s.len = 0) : read h s = [] := by simp [read, e]

theorem inv_init {size : Nat} (hs : 0 < size) (input : List α) : Inv size input (Sys.init size input) where
  wf := newRing_wf size
  cons := by intro b h; exact absurd h (by simp [Sys.init])
  consFill := by intro b h; exact absurd h (by simp [Sys.init])
  idle := fun _ => rfl
  filling := fun _ => ⟨hs, by simp [Sys.init, Ring.current, newRing, read], by simp [Sys.init]⟩
  sending := by intro b l h; exact absurd h (by simp [Sys.init])
  done := by intro h; exact absurd h (by simp [Sys.init])

theorem inv_step {size : Nat} (hs : 0 < size) {fin : Ring α → Ring α × Option Slice} (hf : IsEnd fin) {input : List α} {s t : Sys α}
    (inv : Inv size input s) (st : Step size fin s t) : Inv size input t := by
  cases st with
  | add x rest r hp hi hb =>
    unfold batchAdd at hb
    dsimp only at hb
    by_cases hl : (s.ring.addElem x).current.len = size
    · rw [if_pos hl] at hb; simp at hb
    rw [if_neg hl] at hb
    obtain rfl : s.ring.addElem x = r := by simpa using hb
    obtain ⟨f1, f2, f3⟩ := inv.filling hp
    refine ⟨add_wf inv.wf x, fun b hb => ?_, fun b hb _ => ?_, inv.idle, fun _ => ?_, fun b l h => ?_, fun h => ?_⟩
    · obtain ⟨c1, c2⟩ := inv.cons b hb
      obtain ⟨a1, a2⟩ := add_off1 x c1
      exact ⟨a1, by dsimp only; rw [read_congr a2]; exact c2⟩
    · exact add_off2 inv.wf x (inv.consFill b hb hp)
    · have := add_len s.ring x
      refine ⟨by dsimp only; omega, ?_, f3⟩
      dsimp only
      rw [add_read, ← f2, hi]; simp
    · dsimp only at h; rw [hp] at h; cases h
    · dsimp only at h; rw [hp] at h; cases h
  | emit x rest r b hp hi hb =>
    unfold batchAdd at hb
    dsimp only at hb
    by_cases hl : (s.ring.addElem x).current.len = size
    swap
    · rw [if_neg hl] at hb; simp at hb
    rw [if_pos hl] at hb
    obtain ⟨rfl, rfl⟩ : (s.ring.addElem x).rotate = r ∧ (s.ring.addElem x).current = b := by simpa using hb
    obtain ⟨f1, f2, f3⟩ := inv.filling hp
    have w := add_wf inv.wf x
    obtain ⟨p1, p2⟩ := rot_prev w
    refine ⟨rot_wf w, fun b hb => ?_, fun b hb h => ?_, inv.idle, fun h => ?_, fun b l h => ?_, fun h => ?_⟩
    · obtain ⟨c1, c2⟩ := inv.cons b hb
      obtain ⟨a1, a2⟩ := add_off1 x c1
      obtain ⟨o1, o2⟩ := rot_off (add_off2 inv.wf x (inv.consFill b hb hp))
      exact ⟨o1, by dsimp only; rw [read_congr o2, read_congr a2]; exact c2⟩
    · cases h
    · cases h
    · injection h with h1 h2
      subst h1; subst h2
      refine ⟨p1, rot_len _, by omega, ?_, by simp, fun _ => hl, f3⟩
      dsimp only
      rw [read_congr p2, add_read, ← f2, hi]; simp
    · cases h
  | endNone r hp hi hb =>
    rcases hf s.ring with h | ⟨h, h0⟩
    · rw [h] at hb; simp at hb
    rw [h] at hb
    obtain rfl : s.ring = r := by simpa using hb
    obtain ⟨f1, f2, f3⟩ := inv.filling hp
    refine ⟨inv.wf, inv.cons, fun b hb h => (nomatch h), inv.idle, fun h => (nomatch h), fun b l h => (nomatch h), fun _ => ?_⟩
    rw [read_zero _ h0, hi] at f2
    exact ⟨by simpa using f2, fun b hb => (f3 b hb).le, fun b hb => f3 b (List.dropLast_subset _ hb)⟩
  | endSend r b hp hi hb =>
    rcases hf s.ring with h | ⟨h, h0⟩
    swap
    · rw [h] at hb; simp at hb
    rw [h] at hb
    obtain ⟨rfl, rfl⟩ : s.ring.rotate = r ∧ s.ring.current = b := by simpa using hb
    obtain ⟨f1, f2, f3⟩ := inv.filling hp
    obtain ⟨p1, p2⟩ := rot_prev inv.wf
    refine ⟨rot_wf inv.wf, fun b hb => ?_, fun b hb h => ?_, inv.idle, fun h => ?_, fun b l h => ?_, fun h => ?_⟩
    · obtain ⟨c1, c2⟩ := inv.cons b hb
      obtain ⟨o1, o2⟩ := rot_off (inv.consFill b hb hp)
      exact ⟨o1, by dsimp only; rw [read_congr o2]; exact c2⟩
    · cases h
    · cases h
    · injection h with h1 h2
      subst h1; subst h2
      refine ⟨p1, rot_len _, by omega, ?_, fun _ => hi, by simp, f3⟩
      dsimp only
      rw [read_congr p2]; exact f2
    · cases h
  | handoff b last hp hc =>
    obtain ⟨s1, s2, s3, s4, s5, s6, s7⟩ := inv.sending b last hp
    have hi := inv.idle hc
    cases last with
    | true =>
      have s5 := s5 rfl
      refine ⟨inv.wf, fun b' h => ?_, fun b' h h2 => (nomatch h2), fun h => (nomatch h), fun h => (nomatch h),
        fun b l h => (nomatch h), fun _ => ⟨?_, fun b' hb' => ?_, fun b' hb' => ?_⟩⟩
      · injection h with h; subst h
        exact ⟨s1.1, by dsimp only; rw [hi]⟩
      · simpa [s5] using s4
      · dsimp only at hb'
        rcases List.mem_append.1 hb' with h | h
        · exact (s7 _ h).le
        · rw [List.mem_singleton.1 h, read_length]; exact s3
      · dsimp only at hb'
        rw [List.dropLast_concat] at hb'
        exact s7 _ hb'
    | false =>
      refine ⟨inv.wf, fun b' h => ?_, fun b' h h2 => ?_, fun h => (nomatch h), fun _ => ?_,
        fun b l h => (nomatch h), fun h => (nomatch h)⟩
      · injection h with h; subst h
        exact ⟨s1.1, by dsimp only; rw [hi]⟩
      · injection h with h; subst h
        exact s1
      · dsimp only
        refine ⟨?_, ?_, fun b' hb' => ?_⟩
        · omega
        · rw [read_zero _ s2, ← s4]; simp
        · rcases List.mem_append.1 hb' with h | h
          · exact s7 _ h
          · rw [List.mem_singleton.1 h, read_length]; exact s6 rfl
  | finish b hc =>
    obtain ⟨c1, c2⟩ := inv.cons b hc
    exact ⟨inv.wf, fun b h => (nomatch h), fun b h => (nomatch h), fun _ => c2, inv.filling, inv.sending, inv.done⟩

theorem inv_run {size : Nat} (hs : 0 < size) {fin : Ring α → Ring α × Option Slice} (hf : IsEnd fin) {input : List α}
    {s : Sys α} (h : Run size fin (Sys.init size input) s) : Inv size input s := by
  induction h with
  | refl => exact inv_init hs input
  | step _ st ih => exact inv_step hs hf ih st

/-- The two batchers of the code. -/
def IsBatcher (fin : Ring α → Ring α × Option Slice) : Prop := fin = certEnd ∨ fin = domainEnd

theorem IsBatcher.isEnd {fin : Ring α → Ring α × Option Slice} (h : IsBatcher fin) : IsEnd fin := by
  rcases h with rfl | rfl
  · exact certEnd_isEnd
  · exact domainEnd_isEnd

/-- C36: whatever the schedule, while the next stage works on a batch the batch still holds what it held
when it was taken. -/
theorem C36_batch_untouched {size : Nat} (hs : 0 < size) {fin : Ring α → Ring α × Option Slice} (hf : IsBatcher fin)
    {input : List α} {s : Sys α} (h : Run size fin (Sys.init size input) s) {b : Slice} (hc : s.cons = .working b) :
    s.seen = s.got ++ [read s.ring.heap b] :=
  ((inv_run hs hf.isEnd h).cons b hc).2

/-- C36: and from the moment it is sent until it was processed it holds exactly the next inputs in order:
nothing zeroed, overwritten, lost or repeated. -/
theorem C36_batches_are_inputs {size : Nat} (hs : 0 < size) {fin : Ring α → Ring α × Option Slice} (hf : IsBatcher fin)
    {input : List α} {s : Sys α} (h : Run size fin (Sys.init size input) s) :
    s.got <+: s.seen ∧ s.seen.flatten <+: input.map some ∧
    (∀ b last, s.prod = .sending b last → s.seen.flatten ++ read s.ring.heap b <+: input.map some) ∧
    (∀ b, s.cons = .working b → s.got.flatten ++ read s.ring.heap b <+: input.map some) := by
  have inv := inv_run hs hf.isEnd h
  have h1 : s.got <+: s.seen := by
    cases hc : s.cons with
    | idle => rw [inv.idle hc]; exact List.prefix_refl _
    | working b => rw [(inv.cons b hc).2]; exact List.prefix_append _ _
  have h2 : s.seen.flatten <+: input.map some := by
    cases hp : s.prod with
    | filling => rw [← (inv.filling hp).2.1, List.append_assoc]; exact List.prefix_append _ _
    | sending b l => rw [← (inv.sending b l hp).2.2.2.1, List.append_assoc]; exact List.prefix_append _ _
    | done => rw [(inv.done hp).1]; exact List.prefix_refl _
  refine ⟨h1, h2, fun b l hp => ?_, fun b hc => ?_⟩
  · rw [← (inv.sending b l hp).2.2.2.1]; exact List.prefix_append _ _
  · have := (inv.cons b hc).2
    rw [this] at h2
    simpa using h2

/-- C27: once the batcher has finished and everything is processed, the batches concatenated are the input;
every batch but the last has exactly the configured size, the last at most that. -/
theorem C27_batches_concat {size : Nat} (hs : 0 < size) {fin : Ring α → Ring α × Option Slice} (hf : IsBatcher fin)
    {input : List α} {s : Sys α} (h : Run size fin (Sys.init size input) s) (hd : s.prod = .done) (hc : s.cons = .idle) :
    s.got.flatten = input.map some ∧ (∀ b ∈ s.got, b.length ≤ size) ∧ ∀ b ∈ s.got.dropLast, b.length = size := by
  have inv := inv_run hs hf.isEnd h
  have := inv.done hd
  rwa [inv.idle hc] at this

/-- C27: no schedule gets stuck before everything is processed. -/
theorem C27_no_deadlock {size : Nat} {fin : Ring α → Ring α × Option Slice} (s : Sys α)
    (h : ¬(s.prod = .done ∧ s.cons = .idle)) : ∃ t, Step size fin s t := by
  cases hc : s.cons with
  | working b => exact ⟨_, .finish s b hc⟩
  | idle =>
    cases hp : s.prod with
    | done => exact absurd ⟨hp, hc⟩ h
    | sending b l => exact ⟨_, .handoff s b l hp hc⟩
    | filling =>
      cases hi : s.input with
      | nil =>
        rcases hb : fin s.ring with ⟨r, _ | b⟩
        · exact ⟨_, .endNone s r hp hi hb⟩
        · exact ⟨_, .endSend s r b hp hi hb⟩
      | cons x rest =>
        rcases hb : batchAdd size s.ring x with ⟨r, _ | b⟩
        · exact ⟨_, .add s x rest r hp hi hb⟩
        · exact ⟨_, .emit s x rest r b hp hi hb⟩

/-- Steps still possible. -/
def weight (s : Sys α) : Nat :=
  4 * s.input.length + (match s.prod with | .filling => 3 | .sending _ true => 2 | .sending _ false => 5 | .done => 0) +
    (match s.cons with | .idle => 0 | .working _ => 1)

/-- C27: and every schedule ends. -/
theorem C27_terminates (size : Nat) (fin : Ring α → Ring α × Option Slice) :
    WellFounded (fun t s : Sys α => Step size fin s t) := by
  refine Subrelation.wf (r := InvImage (· < ·) weight) ?_ (InvImage.wf _ Nat.lt_wfRel.wf)
  intro t s st
  show weight t < weight s
  cases st with
  | add x rest r hp hi hb => simp only [weight, hp, hi, List.length_cons]; omega
  | emit x rest r b hp hi hb => simp only [weight, hp, hi, List.length_cons]; omega
  | endNone r hp hi hb => simp only [weight, hp, hi]; omega
  | endSend r b hp hi hb => simp only [weight, hp, hi]; omega
  | handoff b l hp hc => cases l <;> simp [weight, hp, hc]
  | finish b hc => simp only [weight, hc]; omega

/-- A run with batches of two over three inputs: the batcher fills the second batch while the first one is
still being processed. -/
theorem exRun : ∃ s : Sys Nat, Run 2 certEnd (Sys.init 2 [7, 8, 9, 10, 11]) s ∧ s.cons ≠ .idle ∧
    (∃ b, s.prod = .sending b false) ∧ s.seen = [[some 7, some 8]] := by
  refine ⟨_, .step (.step (.step (.step (.step (.refl _)
    (.add _ 7 _ _ rfl rfl rfl)) (.emit _ 8 _ _ _ rfl rfl rfl)) (.handoff _ _ _ rfl rfl))
    (.add _ 9 _ _ rfl rfl rfl)) (.emit _ 10 _ _ _ rfl rfl rfl), ?_, ⟨_, rfl⟩, ?_⟩
  · simp
  · rfl

/-- And a complete run of the domain batcher. -/
theorem exRunDone : ∃ s : Sys Nat, Run 2 domainEnd (Sys.init 2 [7, 8, 9]) s ∧ s.prod = .done ∧ s.cons = .idle ∧
    s.got = [[some 7, some 8], [some 9]] := by
  refine ⟨_, .step (.step (.step (.step (.step (.step (.step (.step (.refl _)
    (.add _ 7 _ _ rfl rfl rfl)) (.emit _ 8 _ _ _ rfl rfl rfl)) (.handoff _ _ _ rfl rfl))
    (.finish _ _ rfl)) (.add _ 9 _ _ rfl rfl rfl)) (.endSend _ _ _ rfl rfl rfl)) (.handoff _ _ _ rfl rfl))
    (.finish _ _ rfl), rfl, rfl, ?_⟩
  rfl

/-! ## C20: sharding -/

/-- C20: the partition index of any ID fits the number of bits (at most 8), and it is the value of the ID's first
`nBits` bits. -/
theorem C20_partition_lt (id : Bytes) (nBits : Nat) (h : nBits ≤ 8) :
    partitionByIdMSB id nBits < 2 ^ nBits ∧
    partitionByIdMSB id nBits = (id.getD 0 0).toNat / 2 ^ (8 - nBits) := by
  have hb : (id.getD 0 0).toNat < 256 := UInt8.toNat_lt _
  have e : (8 + 256 - nBits % 256) % 256 = 8 - nBits := by omega
  unfold partitionByIdMSB
  rw [e, Nat.shiftRight_eq_div_pow]
  refine ⟨?_, rfl⟩
  rw [Nat.div_lt_iff_lt_mul (Nat.pow_pos (by decide)), ← Nat.pow_add, show nBits + (8 - nBits) = 8 by omega]
  exact hb

theorem log2_pow (k : Nat) : Util.log2 (2 ^ k) = k := by
  obtain ⟨h1, h2⟩ := Util.C57_log2_least (2 ^ k) (Nat.pow_pos (by decide))
  have := h2 k (Nat.le_refl _)
  have := (Nat.pow_le_pow_iff_right (by decide : 1 < 2)).1 h1
  omega

/-- C20 (what holds): with a power of two of workers up to 256, or with more than 256 workers, every ID goes to one of
the workers, and the source sends each certificate to a batcher (channels below the number of workers) and to an
extractor (the others). Missing: other worker counts, see the next theorem. -/
theorem C20_worker_exists_partial (workers : Nat) (id : Bytes)
    (h : (∃ k, k ≤ 8 ∧ workers = 2 ^ k) ∨ (256 < workers ∧ workers < 2 ^ 64)) :
    shard workers id < workers ∧ ∃ i < workers, sourceChannels workers id = [i, i + workers] := by
  have key : shard workers id < workers := by
    unfold shard
    rcases h with ⟨k, hk, rfl⟩ | ⟨h, h'⟩
    · rw [log2_pow]; exact (C20_partition_lt id k hk).1
    · obtain ⟨h1, h2⟩ := Util.C57_log2_least workers (by omega)
      have h3 := h2 64 (by omega)
      have h4 : 8 < Util.log2 workers := by
        by_contra hc
        have := Nat.pow_le_pow_right (by decide : 0 < 2) (by omega : Util.log2 workers ≤ 8)
        omega
      have hb : (id.getD 0 0).toNat < 256 := UInt8.toNat_lt _
      unfold partitionByIdMSB
      rw [Nat.shiftRight_eq_div_pow, Nat.div_eq_of_lt]
      · omega
      · refine Nat.lt_of_lt_of_le hb ?_
        exact (Nat.pow_le_pow_iff_right (a := 2) (n := 8) (by decide)).2 (by omega)
  exact ⟨key, _, key, rfl⟩

example : (∃ k, k ≤ 8 ∧ 32 = 2 ^ k) := ⟨5, by decide, rfl⟩

/-- C20 is false for every other worker count up to 256: some ID is given to a worker that does not exist, and the source
uses a channel that does not exist. -/
theorem C20_worker_exists_violated (workers : Nat) (h0 : 0 < workers) (h : workers < 256) (hp : ∀ k, workers ≠ 2 ^ k) :
    ∃ id : Bytes, id.length = 32 ∧ workers ≤ shard workers id ∧ ∃ c ∈ sourceChannels workers id, 2 * workers ≤ c := by
  obtain ⟨h1, h2⟩ := Util.C57_log2_least workers h0
  have h3 := h2 8 (by omega)
  have h4 := hp (Util.log2 workers)
  have e : shard workers (List.replicate 32 255) = 2 ^ Util.log2 workers - 1 := by
    unfold shard
    rw [(C20_partition_lt _ _ h3).2]
    have : ((List.replicate 32 (255 : Byte)).getD 0 0).toNat = 255 := by decide
    rw [this]
    revert h3
    generalize Util.log2 workers = n
    intro h3
    interval_cases n <;> rfl
  refine ⟨List.replicate 32 255, by simp, by omega, shard workers (List.replicate 32 255) + workers, by simp [sourceChannels], by omega⟩

example : (3 : Nat) < 256 ∧ ∀ k, (3 : Nat) ≠ 2 ^ k := by
  refine ⟨by decide, fun k h => ?_⟩
  match k, h with
  | 0, h => simp at h
  | 1, h => simp at h
  | k + 2, h => rw [Nat.pow_add] at h; omega

/-! ## C34: links between certificates and domains -/

theorem lruContains_iff {c : List Bytes} {id : Bytes} : lruContains c id = true ↔ id ∈ c := by simp [lruContains]

theorem lruAdd_sub {size : Nat} {c : List Bytes} {id x : Bytes} (h : x ∈ lruAdd size c id) : x = id ∨ x ∈ c := by
  have := List.mem_of_mem_take h
  rcases List.mem_cons.1 this with h | h
  · exact .inl h
  · exact .inr (List.mem_of_mem_erase h)

theorem extractNames_cache {H : Bytes → Bytes} {size : Nat} {cid x : Bytes} : ∀ {cache ns : List Bytes},
    x ∈ (extractNames H size cid cache ns).1 → x ∈ cache ∨ ∃ n ∈ ns, H n = x
  | cache, [], h => .inl h
  | cache, n :: ns, h => by
    unfold extractNames at h
    by_cases hc : lruContains cache (H n) = true
    · rw [if_pos hc] at h
      rcases extractNames_cache h with h | ⟨m, hm, e⟩
      · exact .inl h
      · exact .inr ⟨m, List.mem_cons_of_mem _ hm, e⟩
    · rw [if_neg hc] at h
      rcases extractNames_cache h with h | ⟨m, hm, e⟩
      · rcases lruAdd_sub h with rfl | h
        · exact .inr ⟨n, List.mem_cons_self, rfl⟩
        · exact .inl h
      · exact .inr ⟨m, List.mem_cons_of_mem _ hm, e⟩

theorem extractNames_complete {H : Bytes → Bytes} {size : Nat} {cid n : Bytes} : ∀ {cache ns : List Bytes},
    n ∈ ns → H n ∉ cache → ∃ d ∈ (extractNames H size cid cache ns).2, d.domainID = H n ∧ d.certID = cid
  | cache, [], h, _ => absurd h List.not_mem_nil
  | cache, m :: ns, h, hc => by
    unfold extractNames
    by_cases hm : lruContains cache (H m) = true
    · rw [if_pos hm]
      rcases List.mem_cons.1 h with rfl | h
      · exact absurd (lruContains_iff.1 hm) hc
      · exact extractNames_complete h hc
    · rw [if_neg hm]
      dsimp only
      by_cases e : H m = H n
      · exact ⟨_, List.mem_cons_self, e, rfl⟩
      · rcases List.mem_cons.1 h with rfl | h
        · exact absurd rfl e
        · have hc' : H n ∉ lruAdd size cache (H m) := fun hx => by
            rcases lruAdd_sub hx with h | h
            · exact e h.symm
            · exact hc h
          obtain ⟨d, hd, h1⟩ := extractNames_complete (size := size) (cid := cid) h hc'
          exact ⟨d, List.mem_cons_of_mem _ hd, h1⟩

theorem extractNames_sound {H : Bytes → Bytes} {size : Nat} {cid : Bytes} {d : DirtyDomain} : ∀ {cache ns : List Bytes},
    d ∈ (extractNames H size cid cache ns).2 → d.certID = cid ∧ d.name ∈ ns ∧ d.domainID = H d.name
  | cache, [], h => absurd h List.not_mem_nil
  | cache, m :: ns, h => by
    unfold extractNames at h
    by_cases hm : lruContains cache (H m) = true
    · rw [if_pos hm] at h
      obtain ⟨h1, h2, h3⟩ := extractNames_sound h
      exact ⟨h1, List.mem_cons_of_mem _ h2, h3⟩
    · rw [if_neg hm] at h
      rcases List.mem_cons.1 h with rfl | h
      · exact ⟨rfl, List.mem_cons_self, rfl⟩
      · obtain ⟨h1, h2, h3⟩ := extractNames_sound h
        exact ⟨h1, List.mem_cons_of_mem _ h2, h3⟩

theorem extractAll_complete {H : Bytes → Bytes} {size : Nat} {c : Cert} {n : Bytes} (hn : n ∈ c.names) :
    ∀ {cache : List Bytes} {pre post : List Cert}, (∀ p ∈ pre, ∀ m ∈ p.names, H m ≠ H n) → H n ∉ cache →
    ∃ d ∈ extractAll H size cache (pre ++ c :: post), d.domainID = H n ∧ d.certID = c.id
  | cache, [], post, _, hc => by
    obtain ⟨d, hd, h⟩ := extractNames_complete (size := size) (cid := c.id) hn hc
    exact ⟨d, by unfold extractAll; exact List.mem_append_left _ hd, h⟩
  | cache, p :: pre, post, hp, hc => by
    have hc' : H n ∉ (extractNames H size p.id cache p.names).1 := fun hx => by
      rcases extractNames_cache hx with h | ⟨m, hm, e⟩
      · exact hc h
      · exact hp p List.mem_cons_self m hm e
    obtain ⟨d, hd, h⟩ := extractAll_complete (size := size) (pre := pre) (post := post) hn
      (fun q hq => hp q (List.mem_cons_of_mem _ hq)) hc'
    exact ⟨d, by unfold extractAll; exact List.mem_append_right _ hd, h⟩

/-- C34 (what holds): the first certificate of a run that carries a domain is linked to it. Missing: later certificates of
the same domain, see the next theorem. -/
theorem C34_first_certificate_linked_partial (H : Bytes → Bytes) (size : Nat) (pre post : List Cert) (c : Cert) (n : Bytes)
    (hn : n ∈ c.names) (hfirst : ∀ p ∈ pre, ∀ m ∈ p.names, H m ≠ H n) :
    ∃ d ∈ extractAll H size [] (pre ++ c :: post), d.domainID = H n ∧ d.certID = c.id :=
  extractAll_complete hn hfirst List.not_mem_nil

/-- C34 (what holds): consequently every domain of the run becomes dirty. -/
theorem C34_every_domain_dirty_partial (H : Bytes → Bytes) (size : Nat) (cs : List Cert) (c : Cert) (n : Bytes)
    (hc : c ∈ cs) (hn : n ∈ c.names) : ∃ d ∈ extractAll H size [] cs, d.domainID = H n := by
  -- take the first certificate with a name of this ID
  have : ∀ cs : List Cert, (∃ c ∈ cs, ∃ n' ∈ c.names, H n' = H n) →
      ∃ pre c post n', cs = pre ++ c :: post ∧ n' ∈ c.names ∧ H n' = H n ∧ ∀ p ∈ pre, ∀ m ∈ p.names, H m ≠ H n := by
    intro cs
    induction cs with
    | nil => rintro ⟨c, h, _⟩; exact absurd h List.not_mem_nil
    | cons q cs ih =>
      rintro ⟨c, h, n', hn', e⟩
      by_cases hq : ∃ m ∈ q.names, H m = H n
      · obtain ⟨m, hm, e⟩ := hq
        exact ⟨[], q, cs, m, rfl, hm, e, fun p hp => absurd hp List.not_mem_nil⟩
      · rcases List.mem_cons.1 h with rfl | h
        · exact absurd ⟨n', hn', e⟩ hq
        · obtain ⟨pre, c', post, m, h1, h2, h3, h4⟩ := ih ⟨c, h, n', hn', e⟩
          refine ⟨q :: pre, c', post, m, by rw [h1]; rfl, h2, h3, fun p hp => ?_⟩
          rcases List.mem_cons.1 hp with rfl | hp
          · exact fun m hm e => hq ⟨m, hm, e⟩
          · exact h4 p hp
  obtain ⟨pre, c', post, m, h1, h2, h3, h4⟩ := this cs ⟨c, hc, n, hn, rfl⟩
  obtain ⟨d, hd, e, _⟩ := extractAll_complete (H := H) (size := size) (cache := []) (pre := pre) (post := post) h2
    (by rw [h3]; exact h4) List.not_mem_nil
  exact ⟨d, h1 ▸ hd, by rw [e, h3]⟩

/-- C34 (soundness): a link is only made between a certificate of the run and one of its own names. -/
theorem C34_links_are_real (H : Bytes → Bytes) (size : Nat) {d : DirtyDomain} : ∀ (cache : List Bytes) (cs : List Cert),
    d ∈ extractAll H size cache cs → ∃ c ∈ cs, d.certID = c.id ∧ d.name ∈ c.names ∧ d.domainID = H d.name
  | cache, [], h => absurd h List.not_mem_nil
  | cache, c :: cs, h => by
    unfold extractAll at h
    rcases List.mem_append.1 h with h | h
    · obtain ⟨h1, h2, h3⟩ := extractNames_sound h
      exact ⟨c, List.mem_cons_self, h1, h2, h3⟩
    · obtain ⟨c', hc, h⟩ := C34_links_are_real H size _ cs h
      exact ⟨c', List.mem_cons_of_mem _ hc, h⟩

/-- C34 is false of the code: of two certificates with the same single name, the second one is never linked (the cache
remembers the domain, not the pair), whatever the hash function. -/
theorem C34_second_certificate_violated (H : Bytes → Bytes) (c1 c2 : Cert) (n : Bytes) (h1 : c1.names = [n])
    (h2 : c2.names = [n]) (hne : c1.id ≠ c2.id) :
    ∀ d ∈ extractAll H domainIdCacheSize [] [c1, c2], d.certID ≠ c2.id := by
  intro d hd
  have e : extractAll H domainIdCacheSize [] [c1, c2] = [⟨H n, c1.id, n⟩] := by
    simp [extractAll, extractNames, h1, h2, lruContains, lruAdd, domainIdCacheSize]
  rw [e, List.mem_singleton] at hd
  rw [hd]; exact hne

example : ∃ c1 c2 : Cert, ∃ n, c1.names = [n] ∧ c2.names = [n] ∧ c1.id ≠ c2.id :=
  ⟨⟨[1], [[9]]⟩, ⟨[2], [[9]]⟩, [9], rfl, rfl, by decide⟩

end Fpki.Batch
