import Verif.Lemmas.LocalFetch
import Verif.Props.Rows
import Verif.Model.Domain

/-!
# C87: the local log fetcher delivers every row of the files once, in every schedule, and ends

`out` are the batches that the caller of `NextBatch` and `ReturnNextBatch` has received; `over`: `NextBatch` has returned false. `parse` says what a parser makes of a
record: nothing (`none`), an expired row (`some none`) or a certificate with its chain (`some (some x)`).
-/
namespace Fpki.LocalFetch
open Fpki.Fetch (Row Result localBatches certsOf expiredOf)
open Fpki.Chains (X509)
open Fpki.Rows (Entry decimal decodeField splitSemicolon Now)
open Fpki.CsvLoad (base64)

/-! ## Specification -/

/-- The records of all files that can be read. -/
def allRows (files : List (File α)) : List α := files.flatMap File.rows

/-- The certificates that a caller has received. -/
def St.certs (s : St α γ) : List γ := s.out.flatMap Result.certs

/-- The number of expired rows that a caller was told about. -/
def St.expired (s : St α γ) : Nat := (s.out.map Result.expired).sum

/-- A file that cannot be opened, read or closed. -/
def File.failing : File α → Bool
  | .records _ cf => cf
  | _ => true

/-- A file that can be opened, but that is not CSV or cannot be read to its end. -/
def File.notCsv : File α → Bool
  | .readFails => true
  | _ => false

/-- A sequence of steps. -/
def steps (c : Conf) (parse : α → Option (Row γ)) : St α γ → List Ev → Option (St α γ)
  | s, [] => some s
  | s, e :: es => match exec c parse s e with
    | some t => steps c parse t es
    | none => none

/-! ## Deliveries -/

theorem load_all (parse : α → Option (Row γ)) : ∀ files : List (File α), files.flatMap (File.load parse) = (allRows files).filterMap parse
  | [] => rfl
  | f :: fs => by
    rw [List.flatMap_cons, load_all parse fs]
    simp only [allRows, List.flatMap_cons, List.filterMap_append]
    rfl

theorem bad_all (parse : α → Option (Row γ)) : ∀ files : List (File α),
    (files.map (File.bad parse)).sum = (allRows files).countP fun a => (parse a).isNone
  | [] => rfl
  | f :: fs => by
    rw [List.map_cons, List.sum_cons, bad_all parse fs]
    simp only [allRows, List.flatMap_cons, List.countP_append]
    rfl

theorem fails_all : ∀ files : List (File α), (files.map File.fails).sum = files.countP File.failing
  | [] => rfl
  | f :: fs => by
    rw [List.map_cons, List.sum_cons, fails_all fs, List.countP_cons]
    cases f with
    | openFails => simp [File.fails, File.failing, Nat.add_comm]
    | readFails => simp [File.fails, File.failing, Nat.add_comm]
    | records r cf =>
      rw [Nat.add_comm]
      rfl

theorem leaks_all (c : Conf) : ∀ files : List (File α), (files.map (File.leaks c)).sum = c.numParsers * files.countP File.notCsv
  | [] => by simp
  | f :: fs => by
    rw [List.map_cons, List.sum_cons, leaks_all c fs, List.countP_cons, Nat.mul_add]
    cases f <;> simp [File.leaks, File.notCsv, Nat.add_comm]

theorem all_finished {c : Conf} {parse : α → Option (Row γ)} {files : List (File α)} {t : St α γ} (h : Inv c parse files t) (hn : 0 < c.numReaders)
    (hf : t.readers.all Reader.isFinished = true) :
    t.todo = [] ∧ t.readers.flatMap (Reader.load parse) = [] ∧ (t.readers.map (Reader.bad parse)).sum = 0 ∧ (t.readers.map Reader.fails).sum = 0 := by
  have hfin : ∀ r ∈ t.readers, r = .finished := by
    intro r hr
    have := List.all_eq_true.1 hf r hr
    cases r <;> first | rfl | cases this
  have hlen : 0 < t.readers.length := by rw [h.num]; exact hn
  refine ⟨?_, ?_, ?_, ?_⟩
  · refine h.fin 0 ?_
    rw [List.getElem?_eq_getElem hlen, hfin _ (List.getElem_mem hlen)]
  · rw [List.flatMap_eq_nil_iff]
    intro r hr; rw [hfin r hr]; rfl
  · rw [List.eq_replicate_of_mem hfin]; exact sum_replicate_zero (f := Reader.bad parse) rfl _
  · rw [List.eq_replicate_of_mem hfin]; exact sum_replicate_zero (f := Reader.fails) rfl _

theorem certsOf_perm {l l' : List (Row γ)} (h : l.Perm l') : (certsOf l).Perm (certsOf l') ∧ expiredOf l = expiredOf l' := by
  constructor
  · unfold certsOf; exact h.filterMap _
  · unfold expiredOf; exact h.countP_eq _

/-- When `NextBatch` has returned false, the caller has received exactly the certificates of the rows of all readable files, each once, and was told the number of
expired rows; no batch is empty or too large, and only the last may be small. Every unreadable file was printed. -/
theorem C87_delivered (c : Conf) (parse : α → Option (Row γ)) (files : List (File α)) (hn : 0 < c.numReaders) (hpb : 0 < c.pb) (t : St α γ)
    (hr : Run c parse (init c files) t) (ho : t.over = true) :
    t.certs.Perm (certsOf ((allRows files).filterMap parse)) ∧ t.expired = expiredOf ((allRows files).filterMap parse) ∧
    (∀ b ∈ t.out, 0 < b.certs.length + b.expired ∧ b.certs.length + b.expired ≤ c.pb ∧ (b.certs.length + b.expired = c.pb ∨ t.out.getLast? = some b)) ∧
    (t.panicked = false → (∀ a ∈ allRows files, (parse a).isSome)) ∧ t.printed = files.countP File.failing ∧
    t.leaked = c.numParsers * files.countP File.notCsv := by
  have h := run_inv hr
  obtain ⟨hcoll, hchan⟩ := h.over ho
  obtain ⟨htodo, hload, hbad, hfails⟩ := all_finished h hn (h.closing (by rw [hcoll]; rfl))
  have hb := h.bad
  rw [hbad, htodo] at hb
  have hb : (files.map (File.bad parse)).sum = 0 := hb.symm
  have hnp : t.panicked = false := by
    cases hp : t.panicked with
    | false => rfl
    | true => have := h.panic hp; omega
  have hperm : t.seen.Perm ((allRows files).filterMap parse) := by
    rcases h.perm with h1 | h1
    · rw [hload, htodo, load_all parse files] at h1
      simpa using h1
    · rw [hnp] at h1; cases h1
  have hco := h.coll
  rw [hcoll, hchan] at hco
  simp only [Coll.Ok, List.append_nil] at hco
  obtain ⟨h1, h2, h3⟩ := Fetch.C27_local_batches c.pb hpb t.seen
  rw [hco] at h1 h2 h3
  obtain ⟨h4, h5⟩ := certsOf_perm hperm
  refine ⟨?_, ?_, h3, ?_, ?_, ?_⟩
  · unfold St.certs; rw [h1]; exact h4
  · unfold St.expired; rw [h2]; exact h5
  · intro _ a ha
    rw [bad_all, List.countP_eq_zero] at hb
    have := hb a ha
    cases hpa : parse a with
    | none => rw [hpa] at this; exact absurd rfl this
    | some x => rfl
  · have := h.errs
    rw [hfails, htodo, fails_all files] at this
    simpa using this
  · have := h.leaks
    rw [htodo, leaks_all c files] at this
    simpa using this

/-- At any time: what was delivered is a part of the rows, nothing twice. -/
theorem C87_safe (c : Conf) (parse : α → Option (Row γ)) (files : List (File α)) (hpb : 0 < c.pb) (t : St α γ)
    (hr : Run c parse (init c files) t) (hp : t.panicked = false) :
    ∃ rest, (t.certs ++ rest).Perm (certsOf ((allRows files).filterMap parse)) := by
  have h := run_inv hr
  have hperm : (t.seen ++ (t.readers.flatMap (Reader.load parse) ++ t.todo.flatMap (File.load parse))).Perm ((allRows files).filterMap parse) := by
    rcases h.perm with h1 | h1
    · rwa [load_all parse files] at h1
    · rw [hp] at h1; cases h1
  have hpre : ∃ bs, localBatches c.pb 0 ⟨[], 0⟩ t.seen = t.out ++ bs := by
    have hco := h.coll
    cases hc : t.coll with
    | recv size r =>
      rw [hc] at hco
      have := hco.2 []
      rw [List.append_nil] at this
      exact ⟨_, by rw [this, List.append_assoc]⟩
    | flush r =>
      rw [hc] at hco
      have := hco.2 []
      rw [List.append_nil] at this
      exact ⟨_, by rw [this, List.append_assoc]⟩
    | last r =>
      rw [hc] at hco
      exact ⟨_, by rw [hco.2, List.append_assoc]⟩
    | ended =>
      rw [hc] at hco
      exact ⟨_, hco⟩
  obtain ⟨bs, hbs⟩ := hpre
  obtain ⟨h1, _, _⟩ := Fetch.C27_local_batches c.pb hpb t.seen
  rw [hbs, List.flatMap_append] at h1
  refine ⟨bs.flatMap Result.certs ++ certsOf (t.readers.flatMap (Reader.load parse) ++ t.todo.flatMap (File.load parse)), ?_⟩
  unfold St.certs
  rw [← List.append_assoc, h1]
  refine List.Perm.trans ?_ (certsOf_perm hperm).1
  unfold certsOf
  simp only [List.filterMap_append]
  exact List.Perm.refl _

/-! ## Ending -/

def Reader.weight : Reader α γ → Nat
  | .finished => 0
  | .idle => 1
  | .failing => 2
  | .file rest ps _ => 8 * rest.length + 6 * ps.countP Option.isSome + 3

def File.weight (f : File α) : Nat := 4 + 8 * f.rows.length

def Coll.weight : Coll γ → Nat
  | .recv size _ => 4 * size + 3
  | .flush _ => 6
  | .last _ => 3
  | .ended => 0

/-- An upper bound of the number of steps to come. -/
def St.weight (s : St α γ) : Nat :=
  (s.todo.map File.weight).sum + (s.readers.map Reader.weight).sum + s.coll.weight + 2 * s.chan.length + (if s.over then 0 else 1) +
    (if s.panicked then 0 else 1)

theorem countP_set {p : β → Bool} {l : List β} {k : Nat} {a b : β} (h : l[k]? = some a) :
    (l.set k b).countP p + (if p a then 1 else 0) = l.countP p + (if p b then 1 else 0) := by
  induction l generalizing k with
  | nil => cases h
  | cons x xs ih =>
    cases k with
    | zero =>
      simp at h; subst h
      simp only [List.set_cons_zero, List.countP_cons]
      omega
    | succ k =>
      simp only [List.getElem?_cons_succ] at h
      simp only [List.set_cons_succ, List.countP_cons]
      have := ih h
      omega

theorem exec_weight {c : Conf} {parse : α → Option (Row γ)} {s t : St α γ} {e : Ev} (he : exec c parse s e = some t) : t.weight < s.weight := by
  cases e with
  | take k =>
    simp only [exec] at he
    split at he
    · cases he
    split at he
    · rename_i f fs hk htodo
      cases he
      have hs := sum_set (f := Reader.weight) (b := startFile c f) hk
      simp only [St.weight, htodo, List.map_cons, List.sum_cons]
      have h1 : (Reader.idle (α := α) (γ := γ)).weight = 1 := rfl
      have h2 : (startFile (γ := γ) c f).weight < f.weight := by
        cases f with
        | openFails => exact (by decide : 2 < 4)
        | readFails => exact (by decide : 2 < 4)
        | records rows cf =>
          simp only [startFile, Reader.weight, File.weight, File.rows, List.countP_replicate]
          simp
          omega
      omega
    · cases he
  | stop k =>
    simp only [exec] at he
    split at he
    · cases he
    split at he
    · rename_i hk htodo
      cases he
      have hs := sum_set (f := Reader.weight) (b := Reader.finished) hk
      have h1 : (Reader.idle (α := α) (γ := γ)).weight = 1 := rfl
      have h2 : (Reader.finished (α := α) (γ := γ)).weight = 0 := rfl
      simp only [St.weight]
      omega
    · cases he
  | feed k p =>
    simp only [exec] at he
    split at he
    · cases he
    rename_i hp
    split at he
    · rename_i a rest ps cf hk
      split at he
      · cases he
        simp only [St.weight, hp]
        simp
      · rename_i x hps hpa
        cases he
        have hs := sum_set (f := Reader.weight) (b := Reader.file rest (ps.set p (some x)) cf) hk
        have hc := countP_set (p := Option.isSome) (b := some x) hps
        simp only [Reader.weight, List.length_cons] at hs
        simp at hc
        simp only [St.weight]
        omega
      · cases he
    · cases he
  | emit k p =>
    simp only [exec] at he
    split at he
    · cases he
    split at he
    · rename_i rest ps cf size r hk hcoll
      split at he
      · rename_i x hps
        cases he
        have hs := sum_set (f := Reader.weight) (b := Reader.file rest (ps.set p none) cf) hk
        have hc := countP_set (p := Option.isSome) (b := none) hps
        simp only [Reader.weight] at hs
        simp at hc
        simp only [St.weight, hcoll]
        have h1 : (Coll.recv size r).weight = 4 * size + 3 := rfl
        have h2 : (collect c size r x).weight ≤ 4 * size + 7 := by
          unfold collect
          split
          · show 6 ≤ _; omega
          · show 4 * (size + 1) + 3 ≤ _; omega
        omega
      · cases he
    · cases he
  | fileDone k =>
    simp only [exec] at he
    split at he
    · cases he
    split at he
    · rename_i ps cf hk
      split at he
      · cases he
        have hs := sum_set (f := Reader.weight) (b := if cf then Reader.failing else Reader.idle) hk
        have h1 : (if cf then Reader.failing else Reader.idle : Reader α γ).weight ≤ 2 := by cases cf <;> simp [Reader.weight]
        have h2 : 3 ≤ (Reader.file (γ := γ) ([] : List α) ps cf).weight := Nat.le_add_left _ _
        simp only [St.weight]
        omega
      · cases he
    · cases he
  | report k =>
    simp only [exec] at he
    split at he
    · cases he
    split at he
    · rename_i hk
      cases he
      have hs := sum_set (f := Reader.weight) (b := Reader.idle) hk
      have h1 : (Reader.idle (α := α) (γ := γ)).weight = 1 := rfl
      have h2 : (Reader.failing (α := α) (γ := γ)).weight = 2 := rfl
      simp only [St.weight]
      omega
    · cases he
  | flush =>
    simp only [exec] at he
    split at he
    · cases he
    split at he
    · split at he
      · rename_i r hcoll
        cases he
        have h1 : (Coll.flush r).weight = 6 := rfl
        have h2 : (Coll.recv 0 (⟨[], 0⟩ : Result γ)).weight = 3 := rfl
        simp only [St.weight, hcoll, List.length_append, List.length_singleton]
        omega
      · rename_i r hcoll
        cases he
        have h1 : (Coll.last r).weight = 3 := rfl
        have h2 : (Coll.ended (γ := γ)).weight = 0 := rfl
        simp only [St.weight, hcoll, List.length_append, List.length_singleton]
        omega
      · cases he
    · cases he
  | stopColl =>
    simp only [exec] at he
    split at he
    · cases he
    split at he
    · rename_i size r hcoll
      split at he
      · cases he
        have h1 : (Coll.recv size r).weight = 4 * size + 3 := rfl
        have h2 : (if size > 0 then Coll.last r else Coll.ended).weight < 4 * size + 3 := by
          split
          · show 3 < _; omega
          · show 0 < _; omega
        simp only [St.weight, hcoll]
        omega
      · cases he
    · cases he
  | next =>
    simp only [exec] at he
    split at he
    · cases he
    rename_i hpo
    have ho : s.over = false := by
      cases ho : s.over with
      | false => rfl
      | true => rw [ho] at hpo; simp at hpo
    split at he
    · rename_i r rs hchan
      split at he
      · cases he
        simp only [St.weight, hchan, ho, List.length_cons]
        simp
        omega
      · cases he
        simp only [St.weight, hchan, ho, List.length_cons]
        omega
    · cases he
      simp only [St.weight, ho]
      simp
    · cases he

/-- No execution goes on for ever: the number of steps is bounded, whatever the schedule. -/
theorem C87_terminates (c : Conf) (parse : α → Option (Row γ)) (files : List (File α)) :
    ∃ bound : Nat, ∀ (es : List Ev) (t : St α γ), steps c parse (init c files) es = some t → es.length ≤ bound := by
  refine ⟨(init (γ := γ) c files).weight, ?_⟩
  have : ∀ (es : List Ev) (s t : St α γ), steps c parse s es = some t → es.length + t.weight ≤ s.weight := by
    intro es
    induction es with
    | nil => intro s t h; cases h; simp
    | cons e es ih =>
      intro s t h
      rw [steps] at h
      split at h
      · rename_i u hu
        have h1 := ih u t h
        have h2 := exec_weight hu
        simp only [List.length_cons]
        omega
      · cases h
  intro es t h
  have := this es _ t h
  omega

/-- Nothing gets stuck while `NextBatch` is called: unless the program has crashed or `NextBatch` has returned false, something can happen. -/
theorem C87_progress (c : Conf) (parse : α → Option (Row γ)) (files : List (File α)) (hpar : 0 < c.numParsers) (hcap : 0 < c.cap) (t : St α γ)
    (hr : Run c parse (init c files) t) (hp : t.panicked = false) (ho : t.over = false) : ∃ (e : Ev) (u : St α γ), exec c parse t e = some u := by
  have h := run_inv hr
  cases hchan : t.chan with
  | cons r rs =>
    refine ⟨.next, ?_⟩
    simp only [exec, hp, ho, hchan]
    simp only [Bool.or_self, Bool.false_eq_true, if_false]
    split
    · exact ⟨_, rfl⟩
    · exact ⟨_, rfl⟩
  | nil =>
    cases hcoll : t.coll with
    | ended => exact ⟨.next, { t with over := true }, by simp only [exec, hp, ho, hchan, hcoll]; rfl⟩
    | flush r => exact ⟨.flush, { t with coll := .recv 0 ⟨[], 0⟩, chan := t.chan ++ [r] }, by simp [exec, hp, hchan, hcoll, hcap]⟩
    | last r => exact ⟨.flush, { t with coll := .ended, chan := t.chan ++ [r] }, by simp [exec, hp, hchan, hcoll, hcap]⟩
    | recv size r =>
      cases hall : t.readers.all Reader.isFinished with
      | true => exact ⟨.stopColl, { t with coll := if size > 0 then .last r else .ended }, by simp only [exec, hp, hcoll, hall]; rfl⟩
      | false =>
        obtain ⟨rd, hmem, hnf⟩ := List.all_eq_false.1 hall
        obtain ⟨k, hk⟩ := List.mem_iff_getElem?.1 hmem
        cases rd with
        | finished => exact absurd rfl hnf
        | idle =>
          cases htodo : t.todo with
          | nil => exact ⟨.stop k, _, by simp only [exec, hp, hk, htodo]; rfl⟩
          | cons f fs => exact ⟨.take k, _, by simp only [exec, hp, hk, htodo]; rfl⟩
        | failing => exact ⟨.report k, _, by simp only [exec, hp, hk]; rfl⟩
        | file rest ps cf =>
          cases hps : ps.all Option.isNone with
          | false =>
            obtain ⟨o, homem, ho'⟩ := List.all_eq_false.1 hps
            obtain ⟨p, hpp⟩ := List.mem_iff_getElem?.1 homem
            cases o with
            | none => exact absurd rfl ho'
            | some x => exact ⟨.emit k p, _, by simp only [exec, hp, hk, hcoll, hpp]; rfl⟩
          | true =>
            cases rest with
            | nil => exact ⟨.fileDone k, _, by simp only [exec, hp, hk, hps]; rfl⟩
            | cons a rest =>
              have hlen : 0 < ps.length := by rw [h.parsers k _ _ _ hk]; exact hpar
              have h0 : ps[0]? = some none := by
                rw [List.getElem?_eq_getElem hlen]
                have := List.all_eq_true.1 hps _ (List.getElem_mem hlen)
                cases hq : ps[0] with
                | none => rfl
                | some y => rw [hq] at this; cases this
              cases hpa : parse a with
              | none => exact ⟨.feed k 0, _, by simp only [exec, hp, hk, h0, hpa]; rfl⟩
              | some x => exact ⟨.feed k 0, _, by simp only [exec, hp, hk, h0, hpa]; rfl⟩

theorem run_trans {c : Conf} {parse : α → Option (Row γ)} {s t u : St α γ} (h1 : Run c parse s t) (h2 : Run c parse t u) : Run c parse s u := by
  induction h2 with
  | refl => exact h1
  | step e _ he ih => exact ih.step e he

theorem can_finish (c : Conf) (parse : α → Option (Row γ)) (files : List (File α)) (hpar : 0 < c.numParsers) (hcap : 0 < c.cap) :
    ∀ (n : Nat) (t : St α γ), t.weight ≤ n → Run c parse (init c files) t → ∃ u, Run c parse t u ∧ (u.over = true ∨ u.panicked = true) := by
  intro n
  induction n with
  | zero =>
    intro t hw hr
    cases hp : t.panicked with
    | true => exact ⟨t, .refl, Or.inr hp⟩
    | false =>
      cases ho : t.over with
      | true => exact ⟨t, .refl, Or.inl ho⟩
      | false =>
        obtain ⟨e, u, he⟩ := C87_progress c parse files hpar hcap t hr hp ho
        have := exec_weight he
        omega
  | succ n ih =>
    intro t hw hr
    cases hp : t.panicked with
    | true => exact ⟨t, .refl, Or.inr hp⟩
    | false =>
      cases ho : t.over with
      | true => exact ⟨t, .refl, Or.inl ho⟩
      | false =>
        obtain ⟨e, u, he⟩ := C87_progress c parse files hpar hcap t hr hp ho
        have := exec_weight he
        obtain ⟨v, hv, hv'⟩ := ih u (by omega) (hr.step e he)
        exact ⟨v, run_trans (Run.refl.step e he) hv, hv'⟩

/-- If all rows can be parsed, the program does not crash, and from wherever the execution is, `NextBatch` can reach its end. -/
theorem C87_completes (c : Conf) (parse : α → Option (Row γ)) (files : List (File α)) (hpar : 0 < c.numParsers) (hcap : 0 < c.cap)
    (hgood : ∀ a ∈ allRows files, (parse a).isSome) (t : St α γ) (hr : Run c parse (init c files) t) :
    t.panicked = false ∧ ∃ u, Run c parse t u ∧ u.over = true := by
  have hnp : ∀ u : St α γ, Run c parse (init c files) u → u.panicked = false := by
    intro u hu
    cases hp : u.panicked with
    | false => rfl
    | true =>
      have := (run_inv hu).panic hp
      rw [bad_all, List.countP_pos_iff] at this
      obtain ⟨a, ha, hb⟩ := this
      have := hgood a ha
      cases hpa : parse a with
      | none => rw [hpa] at this; cases this
      | some x => rw [hpa] at hb; cases hb
  refine ⟨hnp t hr, ?_⟩
  obtain ⟨u, hu, h1⟩ := can_finish c parse files hpar hcap t.weight t (Nat.le_refl _) hr
  refine ⟨u, hu, h1.resolve_right ?_⟩
  rw [hnp u (run_trans hr hu)]
  simp

/-! ## Rows -/

/-- What a caller should get for an entry: nothing but a count if the row or the certificate has expired, otherwise the certificate and its chain. -/
def Entry.wanted (now : Now) (e : Entry) : Row (X509 × List X509) :=
  if e.exp < now.ceil ∨ e.leaf.notAfter < now.ceil then none else some (e.leaf, e.chain)

theorem digits_count {n : Nat} {frac : Bytes} (hf : ∀ c ∈ frac, FastCsv.isDigit c = true) : (decimal n ++ 46 :: frac).count 46 = 1 ∧
    (decimal n ++ 46 :: frac).takeWhile (· != 46) = decimal n := by
  have hd : ∀ c, FastCsv.isDigit c = true → c ≠ 46 := by
    intro c hc h; subst h; exact absurd hc (by decide)
  have h1 : ∀ l : Bytes, (∀ c ∈ l, FastCsv.isDigit c = true) → l.count 46 = 0 := by
    intro l hl
    rw [List.count_eq_zero]
    intro hm
    exact hd _ (hl _ hm) rfl
  constructor
  · rw [List.count_append, List.count_cons, h1 _ (Rows.decimal_digits n), h1 _ hf]
    simp
  · rw [List.takeWhile_append_of_pos (fun c hc => by
      have := hd c (Rows.decimal_digits n c hc)
      simpa using this)]
    simp

theorem parseChain_good (parse : Bytes → Option X509) : ∀ cs : List X509, (∀ x ∈ cs, parse x.raw = some x) →
    parseChain parse (cs.map fun x => base64 x.raw) = some cs
  | [], _ => rfl
  | x :: xs, h => by
    rw [List.map_cons, parseChain, Rows.decodeField_base64, Option.bind_some, h x List.mem_cons_self]
    rw [parseChain_good parse xs (fun y hy => h y (List.mem_cons_of_mem _ hy))]
    rfl

theorem getExpiration_good {parse : Bytes → Option X509} {e : Entry} (h : e.Good parse) : getExpiration (e.columns.getLastD []) = some (e.exp : Int) := by
  obtain ⟨_, _, _, h4⟩ := h.columns
  rw [List.getLastD_eq_getLast?, h4, Option.getD_some, getExpiration]
  obtain ⟨h5, h6⟩ := digits_count (n := e.exp) h.frac.2
  rw [if_pos h5, h6]
  exact Rows.parseInt64_decimal (Nat.lt_of_lt_of_le h.exp (by decide))

/-- A row of a file becomes what it says. -/
theorem C87_row (parse : Bytes → Option X509) (now : Now) (e : Entry) (h : e.Good parse) : parseFields parse now e.columns = some (Entry.wanted now e) := by
  obtain ⟨_, h2, h3, _⟩ := h.columns
  have h1 := getExpiration_good h
  simp only [parseFields, h1]
  have ha := Rows.after_iff now h.exp
  have hb := Rows.after_iff now h.leaf.2
  unfold Entry.wanted
  by_cases h5 : e.exp < now.ceil
  · rw [if_pos (ha.2 h5), if_pos (Or.inl h5)]
  · rw [if_neg (fun h6 => h5 (ha.1 h6)), h2]
    simp only [Rows.decodeField_base64, Option.bind_some, h.parses.1]
    by_cases h7 : e.leaf.notAfter < now.ceil
    · rw [if_pos (hb.2 h7), if_pos (Or.inr h7)]
    · rw [if_neg (fun h6 => h7 (hb.1 h6)), if_neg (by rintro (h8 | h8); exacts [h5 h8, h7 h8]), h3]
      simp only
      rw [Rows.splitSemicolon_join]
      · rw [parseChain_good parse e.chain h.parses.2]
      · intro h9
        exact h.chain (List.map_eq_nil_iff.1 h9)
      · intro p hp
        obtain ⟨x, _, rfl⟩ := List.mem_map.1 hp
        intro hc
        exact (Rows.base64_no _ _ hc).1 rfl

theorem entries_rows (parse : Bytes → Option X509) (now : Now) : ∀ es : List Entry, (∀ e ∈ es, e.Good parse) →
    (es.map Entry.columns).filterMap (parseFields parse now) = es.map (Entry.wanted now)
  | [], _ => rfl
  | e :: es, h => by
    rw [List.map_cons, List.filterMap_cons, C87_row parse now e (h e List.mem_cons_self)]
    simp only [List.map_cons]
    rw [entries_rows parse now es (fun x hx => h x (List.mem_cons_of_mem _ hx))]

theorem allRows_entries (files : List (List Entry)) : allRows (files.map fun es => File.records (es.map Entry.columns) false) = files.flatten.map Entry.columns := by
  induction files with
  | nil => rfl
  | cons f fs ih =>
    simp only [allRows, List.map_cons, List.flatMap_cons] at ih ⊢
    rw [ih, List.flatten_cons, List.map_append]
    rfl

/-- Files of good entries: in every schedule the caller gets each entry that has not expired once, with its chain, and the number of the others; the program does
not crash, and it can always be brought to its end. -/
theorem C87_entries (c : Conf) (hn : 0 < c.numReaders) (hpar : 0 < c.numParsers) (hpb : 0 < c.pb) (hcap : 0 < c.cap) (parse : Bytes → Option X509) (now : Now)
    (files : List (List Entry)) (hg : ∀ es ∈ files, ∀ e ∈ es, e.Good parse) (t : St (List Bytes) (X509 × List X509))
    (hr : Run c (parseFields parse now) (init c (files.map fun es => .records (es.map Entry.columns) false)) t) :
    t.panicked = false ∧ (∃ u, Run c (parseFields parse now) t u ∧ u.over = true) ∧
    (t.over = true →
      t.certs.Perm ((files.flatten.filter fun e => decide (now.ceil ≤ e.exp ∧ now.ceil ≤ e.leaf.notAfter)).map fun e => (e.leaf, e.chain)) ∧
      t.expired = files.flatten.countP fun e => decide (e.exp < now.ceil ∨ e.leaf.notAfter < now.ceil)) := by
  have hg' : ∀ e ∈ files.flatten, e.Good parse := by
    intro e he
    obtain ⟨es, hes, he⟩ := List.mem_flatten.1 he
    exact hg es hes e he
  obtain ⟨h1, h2⟩ := C87_completes c (parseFields parse now) _ hpar hcap (by
    intro a ha
    rw [allRows_entries] at ha
    obtain ⟨e, he, rfl⟩ := List.mem_map.1 ha
    rw [C87_row parse now e (hg' e he)]
    rfl) t hr
  refine ⟨h1, h2, ?_⟩
  intro ho
  obtain ⟨h3, h4, _⟩ := C87_delivered c _ _ hn hpb t hr ho
  rw [allRows_entries, entries_rows parse now _ hg'] at h3 h4
  constructor
  · refine h3.trans (List.Perm.of_eq ?_)
    generalize files.flatten = es
    induction es with
    | nil => rfl
    | cons e es ih =>
      rw [List.map_cons, List.filter_cons]
      unfold certsOf at ih ⊢
      rw [List.filterMap_cons]
      by_cases hx : e.exp < now.ceil ∨ e.leaf.notAfter < now.ceil
      · rw [if_neg (by simp only [decide_eq_true_eq]; omega)]
        simp only [Entry.wanted, if_pos hx, id]
        exact ih
      · rw [if_pos (by simp only [decide_eq_true_eq]; omega)]
        simp only [Entry.wanted, if_neg hx, id, List.map_cons]
        congr 1
  · rw [h4]
    generalize files.flatten = es
    unfold expiredOf
    rw [List.countP_map]
    apply List.countP_congr
    intro e _
    simp only [Function.comp, Entry.wanted]
    split
    · rename_i hx; simp [hx]
    · rename_i hx; simp [hx]

/-! ## What goes wrong -/

/-- One row that cannot be parsed ends the program, whatever else the files contain: `NextBatch` never returns false, and each execution leads to the panic. -/
theorem C87_bad_row_crash_violated (c : Conf) (hn : 0 < c.numReaders) (hpar : 0 < c.numParsers) (hpb : 0 < c.pb) (hcap : 0 < c.cap)
    (parse : α → Option (Row γ)) (files : List (File α)) (a : α) (ha : a ∈ allRows files) (hbad : parse a = none) (t : St α γ)
    (hr : Run c parse (init c files) t) : t.over = false ∧ ∃ u, Run c parse t u ∧ u.panicked = true := by
  have hno : ∀ u : St α γ, Run c parse (init c files) u → u.over = false := by
    intro u hu
    cases ho : u.over with
    | false => rfl
    | true =>
      obtain ⟨hcoll, hchan⟩ := (run_inv hu).over ho
      obtain ⟨htodo, _, hb, _⟩ := all_finished (run_inv hu) hn ((run_inv hu).closing (by rw [hcoll]; rfl))
      have h := (run_inv hu).bad
      rw [hb, htodo, bad_all parse files] at h
      have h : (allRows files).countP (fun a => (parse a).isNone) = 0 := h.symm
      rw [List.countP_eq_zero] at h
      have := h a ha
      rw [hbad] at this
      exact absurd rfl this
  refine ⟨hno t hr, ?_⟩
  obtain ⟨u, hu, h1⟩ := can_finish c parse files hpar hcap t.weight t (Nat.le_refl _) hr
  refine ⟨u, hu, h1.resolve_left ?_⟩
  rw [hno u (run_trans hr hu)]
  simp

/-- Such a row: a root certificate, which has no chain. (Its chain column is empty, which is taken for one part with an empty certificate.) -/
theorem C87_no_chain_violated (parse : Bytes → Option X509) (hempty : parse [] = none) (now : Now) (e : Entry) (h1 : e.first.length = 3) (h2 : e.chain = [])
    (h3 : ∀ c ∈ e.frac, FastCsv.isDigit c = true) (h4 : e.exp < 2 ^ 62) (h5 : parse e.leaf.raw = some e.leaf) (h6 : e.leaf.notAfter < 2 ^ 62)
    (h7 : now.ceil ≤ e.exp) (h8 : now.ceil ≤ e.leaf.notAfter) : parseFields parse now e.columns = none := by
  have hc3 : e.columns[3]? = some (base64 e.leaf.raw) := by
    unfold Entry.columns
    rw [List.append_assoc, List.append_assoc, List.getElem?_append_right (by omega), h1]
    rfl
  have hc4 : e.columns[4]? = some [] := by
    unfold Entry.columns
    rw [List.append_assoc, List.append_assoc, List.getElem?_append_right (by omega), h1, h2]
    rfl
  have hl : e.columns.getLast? = some (decimal e.exp ++ 46 :: e.frac) := by
    unfold Entry.columns
    rw [List.getLast?_append]
    rfl
  have hexp : getExpiration (e.columns.getLastD []) = some (e.exp : Int) := by
    rw [List.getLastD_eq_getLast?, hl, Option.getD_some, getExpiration]
    obtain ⟨h5, h6⟩ := digits_count (n := e.exp) h3
    rw [if_pos h5, h6]
    exact Rows.parseInt64_decimal (Nat.lt_of_lt_of_le h4 (by decide))
  simp only [parseFields, hexp]
  rw [if_neg (fun h => by have := (Rows.after_iff now h4).1 h; omega), hc3]
  simp only [Rows.decodeField_base64, Option.bind_some, h5]
  rw [if_neg (fun h => by have := (Rows.after_iff now h6).1 h; omega), hc4]
  simp only
  have hs : splitSemicolon [] = [[]] := by decide
  have hd : decodeField [] = some [] := by decide
  rw [hs, parseChain, hd, Option.bind_some, hempty]

/-- The two readers of CSV files do not accept the same expirations: a row that one accepts ends the other. -/
theorem C87_formats_differ_violated :
    (getExpiration (Domain.asc "100.") = some 100 ∧ Rows.getExpiration (Domain.asc "100.") = none) ∧
    (getExpiration (Domain.asc "100.5.1") = none ∧ Rows.getExpiration (Domain.asc "100.5.1") = some 100) := by decide +kernel

/-- If files cannot be opened or read, the caller is not told: `NextBatch` returns false as if there were no such files. (Without any other file: no batch.) -/
theorem C87_silent_violated (c : Conf) (hn : 0 < c.numReaders) (hpar : 0 < c.numParsers) (hpb : 0 < c.pb) (hcap : 0 < c.cap) (parse : α → Option (Row γ))
    (files : List (File α)) (hf : ∀ f ∈ files, f = .openFails ∨ f = .readFails) :
    (∃ t, Run c parse (init c files) t ∧ t.over = true) ∧
    ∀ t, Run c parse (init c files) t → t.over = true → t.out = [] ∧ t.printed = files.length ∧ t.leaked = c.numParsers * files.countP File.notCsv := by
  have hrows : allRows files = [] := by
    unfold allRows
    rw [List.flatMap_eq_nil_iff]
    intro f hm
    rcases hf f hm with rfl | rfl <;> rfl
  constructor
  · obtain ⟨_, t, h1, h2⟩ := C87_completes c parse files hpar hcap (by rw [hrows]; intro a ha; cases ha) (init c files) .refl
    exact ⟨t, h1, h2⟩
  · intro t hr ho
    obtain ⟨h1, h2, h3, _, h5, h6⟩ := C87_delivered c parse files hn hpb t hr ho
    rw [hrows] at h1 h2
    refine ⟨?_, ?_, h6⟩
    · cases hout : t.out with
      | nil => rfl
      | cons b bs =>
        exfalso
        have hb := (h3 b (by rw [hout]; exact List.mem_cons_self)).1
        simp only [St.certs, hout, List.flatMap_cons] at h1
        have h1 : b.certs ++ bs.flatMap Result.certs = [] := List.perm_nil.1 h1
        have h2' : ((b :: bs).map Result.expired).sum = 0 := by rw [← hout]; exact h2
        rw [List.map_cons, List.sum_cons] at h2'
        rw [(List.append_eq_nil_iff.1 h1).1] at hb
        simp only [List.length_nil] at hb
        omega
    · rw [h5, List.countP_eq_length]
      intro f hm
      rcases hf f hm with rfl | rfl <;> rfl

/-- If the caller does not take the batches, the goroutines do not end, not even after `StopFetching` (nothing reads its flag): with more rows than the channel has
room for, the one that makes batches is blocked for ever. -/
theorem C87_abandoned_violated (c : Conf) (hn : 0 < c.numReaders) (hpb : 0 < c.pb) (parse : α → Option (Row γ)) (files : List (File α))
    (hmany : c.cap * c.pb < ((allRows files).filterMap parse).length) (t : St α γ) (hr : Run c parse (init c files) t) (hp : t.panicked = false)
    (hout : t.out = []) : t.coll ≠ .ended := by
  intro hcoll
  have h := run_inv hr
  obtain ⟨htodo, hload, _, _⟩ := all_finished h hn (h.closing (by rw [hcoll]; rfl))
  have hperm : t.seen.Perm ((allRows files).filterMap parse) := by
    rcases h.perm with h1 | h1
    · rw [hload, htodo, load_all parse files] at h1
      simpa using h1
    · rw [hp] at h1; cases h1
  have hco := h.coll
  rw [hcoll, hout] at hco
  simp only [Coll.Ok, List.nil_append] at hco
  obtain ⟨h1, h2, h3⟩ := Fetch.C27_local_batches c.pb hpb t.seen
  rw [hco] at h1 h2 h3
  have hlen : t.seen.length = (certsOf t.seen).length + expiredOf t.seen := by
    generalize t.seen = l
    unfold certsOf expiredOf
    induction l with
    | nil => rfl
    | cons x xs ih =>
      cases x with
      | none =>
        rw [List.filterMap_cons_none rfl, List.length_cons, List.countP_cons, ih]
        rfl
      | some y =>
        rw [List.filterMap_cons_some (f := id) (b := y) rfl, List.length_cons, List.countP_cons, List.length_cons, ih]
        simp only [Option.isNone_some, Bool.false_eq_true, if_false]
        omega
  have hsum : ∀ l : List (Result γ), (∀ b ∈ l, b.certs.length + b.expired ≤ c.pb) →
      (l.flatMap Result.certs).length + (l.map Result.expired).sum ≤ l.length * c.pb := by
    intro l
    induction l with
    | nil => intro _; simp
    | cons b bs ih =>
      intro hb
      have h4 := hb b List.mem_cons_self
      have h5 := ih (fun x hx => hb x (List.mem_cons_of_mem _ hx))
      simp only [List.flatMap_cons, List.length_append, List.map_cons, List.sum_cons, List.length_cons, Nat.add_mul, Nat.one_mul]
      omega
  have h6 := hsum t.chan (fun b hb => (h3 b hb).2.1)
  rw [h1, h2, ← hlen, hperm.length_eq] at h6
  have h7 := Nat.mul_le_mul_right c.pb h.cap
  omega

/-! ## Examples -/

/-- One reader with two parsers. -/
def exConf : Conf := ⟨1, 2, 2, 2⟩

def exParse' (n : Nat) : Option (Row Nat) := if n = 0 then none else if n < 10 then some none else some (some n)

-- Two files, one that cannot be read in between: the rows come out of order, in two batches; one error is printed and two parsers wait for ever.
example : (steps exConf exParse' (init exConf [.records [10, 11] false, .readFails, .records [5] false])
    [.take 0, .feed 0 0, .feed 0 1, .emit 0 1, .emit 0 0, .fileDone 0, .flush, .take 0, .report 0, .take 0, .feed 0 1, .next, .emit 0 1, .fileDone 0, .stop 0,
     .stopColl, .flush, .next, .next]).map (fun s => (s.over, s.out.map (fun b => (b.certs, b.expired)), [s.expired, s.printed, s.leaked]))
    = some (true, [([11, 10], 0), ([], 1)], [1, 1, 2]) := by decide +kernel

-- A row that cannot be parsed.
example : (steps exConf exParse' (init exConf [.records [10, 0] false]) [.take 0, .feed 0 0, .feed 0 1]).map (·.panicked) = some true := by decide +kernel

theorem run_of_steps {c : Conf} {parse : α → Option (Row γ)} : ∀ (es : List Ev) (s t : St α γ), steps c parse s es = some t → Run c parse s t := by
  intro es
  induction es with
  | nil => intro s t h; cases h; exact .refl
  | cons e es ih =>
    intro s t h
    rw [steps] at h
    split at h
    · rename_i u hu
      exact run_trans (Run.refl.step e hu) (ih u t h)
    · cases h

-- The hypotheses of C87_delivered.
example : ∃ t, Run exConf exParse' (init exConf [.records [10, 11] false, .readFails, .records [5] false]) t ∧ t.over = true := by
  obtain ⟨_, t, h1, h2⟩ := C87_completes exConf exParse' [.records [10, 11] false, .readFails, .records [5] false] (by decide) (by decide) (by decide)
    (init exConf _) .refl
  exact ⟨t, h1, h2⟩

-- The hypotheses of C87_entries, with the entry of C86.
example : parseFields Rows.exParse ⟨50, 0⟩ Rows.exEntry.columns = some (some (Rows.exLeaf, [Rows.exRoot])) := by
  rw [C87_row _ _ _ Rows.exEntry_good]
  rfl

example : parseFields Rows.exParse ⟨101, 0⟩ Rows.exEntry.columns = some none := by
  rw [C87_row _ _ _ Rows.exEntry_good]
  rfl

-- The hypotheses of C87_no_chain_violated.
example : parseFields Rows.exParse ⟨50, 0⟩ ({ Rows.exEntry with chain := [] } : Entry).columns = none := by
  apply C87_no_chain_violated
  · decide
  · rfl
  · rfl
  · exact Rows.exEntry_good.frac.2
  · exact Rows.exEntry_good.exp
  · exact Rows.exEntry_good.parses.1
  · exact Rows.exEntry_good.leaf.2
  · decide
  · decide

-- The hypotheses of C87_abandoned_violated, at a state where everything is blocked: both batches in the channel, one about to be sent.
example : (steps exConf exParse' (init exConf [.records [10, 11, 12, 13, 14, 15, 16] false])
    [.take 0, .feed 0 0, .feed 0 1, .emit 0 0, .emit 0 1, .flush, .feed 0 0, .feed 0 1, .emit 0 0, .emit 0 1, .flush, .feed 0 0, .feed 0 1, .emit 0 0, .emit 0 1,
     .feed 0 0]).map (fun s => (s.out.length, s.chan.length, s.panicked,
       [exec exConf exParse' s .flush, exec exConf exParse' s (.emit 0 0), exec exConf exParse' s (.emit 0 1), exec exConf exParse' s (.feed 0 1)].map Option.isSome))
    = some (0, 2, false, [false, false, false, false]) := by decide +kernel

end Fpki.LocalFetch
