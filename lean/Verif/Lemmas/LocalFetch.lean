import Verif.Model.LocalFetch
import Verif.Props.Fetch
import Verif.Lemmas.ListSet

/-! # Invariants of the local log fetcher -/
namespace Fpki.LocalFetch
open Fpki.Fetch (Row Result localBatches certsOf expiredOf)

/-- The rows that a reader has still to send. -/
def Reader.load (parse : α → Option (Row γ)) : Reader α γ → List (Row γ)
  | .file rest ps _ => ps.flatMap Option.toList ++ rest.filterMap parse
  | _ => []

def File.load (parse : α → Option (Row γ)) (f : File α) : List (Row γ) := f.rows.filterMap parse

/-- The records that cannot be parsed and are with a reader. -/
def Reader.bad (parse : α → Option (Row γ)) : Reader α γ → Nat
  | .file rest _ _ => rest.countP fun a => (parse a).isNone
  | _ => 0

def File.bad (parse : α → Option (Row γ)) (f : File α) : Nat := f.rows.countP fun a => (parse a).isNone

def Coll.Ok (pb : Nat) (seen : List (Row γ)) (before : List (Result γ)) : Coll γ → Prop
  | .recv size r => size = r.certs.length + r.expired ∧
      ∀ xs, localBatches pb 0 ⟨[], 0⟩ (seen ++ xs) = before ++ localBatches pb size r xs
  | .flush r => 0 < r.certs.length + r.expired ∧ ∀ xs, localBatches pb 0 ⟨[], 0⟩ (seen ++ xs) = before ++ r :: localBatches pb 0 ⟨[], 0⟩ xs
  | .last r => 0 < r.certs.length + r.expired ∧ localBatches pb 0 ⟨[], 0⟩ seen = before ++ [r]
  | .ended => localBatches pb 0 ⟨[], 0⟩ seen = before

/-- Errors to come. -/
def File.fails : File α → Nat
  | .records _ cf => if cf then 1 else 0
  | _ => 1

def Reader.fails : Reader α γ → Nat
  | .file _ _ cf => if cf then 1 else 0
  | .failing => 1
  | _ => 0

def Coll.closing : Coll γ → Bool
  | .last _ => true
  | .ended => true
  | _ => false

structure Inv (c : Conf) (parse : α → Option (Row γ)) (files : List (File α)) (s : St α γ) : Prop where
  perm : (s.seen ++ (s.readers.flatMap (Reader.load parse) ++ s.todo.flatMap (File.load parse))).Perm (files.flatMap (File.load parse)) ∨ s.panicked = true
  bad : (s.readers.map (Reader.bad parse)).sum + (s.todo.map (File.bad parse)).sum = (files.map (File.bad parse)).sum
  panic : s.panicked = true → 0 < (files.map (File.bad parse)).sum
  num : s.readers.length = c.numReaders
  parsers : ∀ (k : Nat) (rest : List α) (ps : List (Option (Row γ))) (cf : Bool), s.readers[k]? = some (.file rest ps cf) → ps.length = c.numParsers
  fin : ∀ k : Nat, s.readers[k]? = some .finished → s.todo = []
  coll : s.coll.Ok c.pb s.seen (s.out ++ s.chan)
  closing : s.coll.closing = true → s.readers.all Reader.isFinished = true
  full : ∀ r ∈ s.out ++ s.chan, 0 < r.certs.length + r.expired
  cap : s.chan.length ≤ c.cap
  over : s.over = true → s.coll = .ended ∧ s.chan = []
  errs : s.printed + (s.readers.map Reader.fails).sum + (s.todo.map File.fails).sum = (files.map File.fails).sum
  leaks : s.leaked + (s.todo.map (File.leaks c)).sum = (files.map (File.leaks c)).sum

theorem flatMap_replicate_nil {f : β → List δ} {a : β} (h : f a = []) : ∀ n, (List.replicate n a).flatMap f = []
  | 0 => rfl
  | n + 1 => by rw [List.replicate_succ, List.flatMap_cons, h, flatMap_replicate_nil h n]; rfl

theorem sum_replicate_zero {f : β → Nat} {a : β} (h : f a = 0) : ∀ n, ((List.replicate n a).map f).sum = 0
  | 0 => rfl
  | n + 1 => by rw [List.replicate_succ, List.map_cons, List.sum_cons, h, sum_replicate_zero h n]

theorem init_inv (c : Conf) (parse : α → Option (Row γ)) (files : List (File α)) : Inv c parse files (init c files) where
  perm := Or.inl (by simp only [init, List.nil_append]; rw [flatMap_replicate_nil rfl]; exact List.Perm.refl _)
  bad := by simp only [init]; rw [sum_replicate_zero (f := Reader.bad parse) rfl]; omega
  panic := by intro h; cases h
  num := by simp [init]
  parsers := by
    intro k rest ps cf h
    simp only [init, List.getElem?_replicate] at h
    split at h <;> cases h
  fin := by
    intro k h
    simp only [init, List.getElem?_replicate] at h
    split at h <;> cases h
  coll := ⟨rfl, fun xs => rfl⟩
  closing := by intro h; cases h
  full := by intro r hr; cases hr
  cap := Nat.zero_le _
  over := by intro h; cases h
  errs := by simp only [init]; rw [sum_replicate_zero (f := Reader.fails) rfl]; omega
  leaks := by simp [init]

/-- Replacing a reader: what holds for the others. -/
theorem get_set_cases {l : List β} {k j : Nat} {b x : β} (h : (l.set k b)[j]? = some x) : (j = k ∧ x = b) ∨ l[j]? = some x := by
  by_cases hj : j = k
  · subst hj
    left
    refine ⟨rfl, ?_⟩
    rw [List.getElem?_set_self' ] at h
    cases hl : l[j]? with
    | none => rw [hl] at h; cases h
    | some y => rw [hl] at h; injection h with h; exact h.symm
  · right
    rwa [List.getElem?_set_ne (fun h => hj h.symm)] at h

theorem not_closing {c : Conf} {parse : α → Option (Row γ)} {files : List (File α)} {s : St α γ} (h : Inv c parse files s) {k : Nat} {r : Reader α γ}
    (hk : s.readers[k]? = some r) (hr : r.isFinished = false) : s.coll.closing = false := by
  cases hc : s.coll.closing with
  | false => rfl
  | true =>
    have := List.all_eq_true.1 (h.closing hc) r (List.mem_of_getElem? hk)
    rw [hr] at this
    cases this

theorem perm_move {a b c d : List β} (h : (a ++ (b ++ c)).Perm d) {b' : List β} (hb : b.Perm b') : (a ++ (b' ++ c)).Perm d :=
  (List.Perm.append_left a (List.Perm.append_right c hb.symm)).trans h

theorem readers_perm {f : β → List δ} {l : List β} {k : Nat} {a b : β} (h : l[k]? = some a) (hab : (f a).Perm (f b)) :
    (l.flatMap f).Perm ((l.set k b).flatMap f) := by
  have h1 := flatMap_set_perm (f := f) (b := b) h
  have h2 : (f a ++ (l.set k b).flatMap f).Perm (f a ++ l.flatMap f) := h1.trans (hab.symm.append_right _)
  exact ((List.perm_append_left_iff _).1 h2).symm

theorem exec_inv {c : Conf} {parse : α → Option (Row γ)} {files : List (File α)} {s t : St α γ} {e : Ev} (h : Inv c parse files s)
    (he : exec c parse s e = some t) : Inv c parse files t := by
  cases e with
  | take k =>
    simp only [exec] at he
    split at he
    · cases he
    rename_i hp
    split at he
    · rename_i f fs hk htodo
      cases he
      have hs := sum_set (f := Reader.bad parse) (b := startFile c f) hk
      have hs2 := sum_set (f := Reader.fails) (b := startFile c f) hk
      have hp1 := flatMap_set_perm (f := Reader.load parse) (b := startFile c f) hk
      have hstart : (startFile c f).load parse = File.load parse f ∧ (startFile (γ := γ) c f).bad parse = File.bad parse f ∧
          (startFile (γ := γ) c f).fails = f.fails := by
        cases f with
        | openFails => exact ⟨rfl, rfl, rfl⟩
        | readFails => exact ⟨rfl, rfl, rfl⟩
        | records rows cf =>
          refine ⟨?_, rfl, rfl⟩
          simp only [startFile, Reader.load]
          rw [flatMap_replicate_nil rfl]
          rfl
      rw [hstart.1] at hp1
      rw [hstart.2.1] at hs
      rw [hstart.2.2] at hs2
      have hi1 : (Reader.idle (α := α) (γ := γ)).bad parse = 0 := rfl
      have hi2 : (Reader.idle (α := α) (γ := γ)).fails = 0 := rfl
      rw [hi1] at hs
      rw [hi2] at hs2
      have hb := h.bad
      have he' := h.errs
      have hl := h.leaks
      rw [htodo, List.map_cons, List.sum_cons] at hb he' hl
      refine ⟨?_, ?_, h.panic, ?_, ?_, ?_, h.coll, ?_, h.full, h.cap, h.over, ?_, ?_⟩
      · rcases h.perm with h1 | h1
        · left
          rw [htodo, List.flatMap_cons] at h1
          refine List.Perm.trans ?_ h1
          apply List.Perm.append_left
          rw [← List.append_assoc]
          apply List.Perm.append_right
          exact hp1.trans List.perm_append_comm
        · exact Or.inr h1
      · show ((s.readers.set k (startFile c f)).map (Reader.bad parse)).sum + (fs.map (File.bad parse)).sum = _
        omega
      · show (s.readers.set k (startFile c f)).length = _
        rw [List.length_set]; exact h.num
      · intro j rest ps cf hj
        rcases get_set_cases hj with ⟨rfl, h1⟩ | h1
        · cases f with
          | openFails => cases h1
          | readFails => cases h1
          | records rows cf' => cases h1; simp
        · exact h.parsers j rest ps cf h1
      · intro j hj
        rcases get_set_cases hj with ⟨rfl, h1⟩ | h1
        · cases f <;> cases h1
        · have := h.fin j h1
          rw [htodo] at this
          cases this
      · intro hc
        rw [not_closing h hk rfl] at hc
        cases hc
      · show s.printed + ((s.readers.set k (startFile c f)).map Reader.fails).sum + (fs.map File.fails).sum = _
        omega
      · show s.leaked + f.leaks c + (fs.map (File.leaks c)).sum = _
        omega
    · cases he
  | stop k =>
    simp only [exec] at he
    split at he
    · cases he
    rename_i hp
    split at he
    · rename_i hk htodo
      cases he
      have hs := sum_set (f := Reader.bad parse) (b := Reader.finished) hk
      have hs2 := sum_set (f := Reader.fails) (b := Reader.finished) hk
      simp only [Reader.bad] at hs
      simp only [Reader.fails] at hs2
      refine ⟨?_, ?_, h.panic, ?_, ?_, ?_, h.coll, ?_, h.full, h.cap, h.over, ?_, h.leaks⟩
      · exact h.perm.imp_left fun h1 => perm_move h1 (readers_perm hk (List.Perm.refl _))
      · have := h.bad
        show ((s.readers.set k .finished).map (Reader.bad parse)).sum + (s.todo.map (File.bad parse)).sum = _
        omega
      · show (s.readers.set k _).length = _
        rw [List.length_set]; exact h.num
      · intro j rest ps cf hj
        rcases get_set_cases hj with ⟨rfl, h1⟩ | h1
        · cases h1
        · exact h.parsers j rest ps cf h1
      · intro j hj
        exact htodo
      · intro hc
        rw [not_closing h hk rfl] at hc
        cases hc
      · have := h.errs
        show s.printed + ((s.readers.set k .finished).map Reader.fails).sum + (s.todo.map File.fails).sum = _
        omega
    · cases he
  | feed k p =>
    simp only [exec] at he
    split at he
    · cases he
    rename_i hp
    split at he
    · rename_i a rest ps cf hk
      split at he
      · rename_i hps hpa
        cases he
        refine ⟨Or.inr rfl, h.bad, ?_, h.num, h.parsers, h.fin, h.coll, h.closing, h.full, h.cap, h.over, h.errs, h.leaks⟩
        intro _
        rw [← h.bad]
        have hs := sum_set (f := Reader.bad parse) (b := Reader.finished) hk
        have h1 : 0 < (Reader.file (γ := γ) (a :: rest) ps cf).bad parse := by
          simp only [Reader.bad]
          rw [List.countP_cons, hpa]
          exact Nat.succ_pos _
        simp only [Reader.bad] at hs h1
        omega
      · rename_i x hps hpa
        cases he
        have hs := sum_set (f := Reader.bad parse) (b := Reader.file rest (ps.set p (some x)) cf) hk
        have hs2 := sum_set (f := Reader.fails) (b := Reader.file rest (ps.set p (some x)) cf) hk
        simp only [Reader.bad, List.countP_cons, hpa] at hs
        simp only [Reader.fails] at hs2
        refine ⟨?_, ?_, h.panic, ?_, ?_, ?_, h.coll, ?_, h.full, h.cap, h.over, ?_, h.leaks⟩
        · refine h.perm.imp_left fun h1 => perm_move h1 (readers_perm hk ?_)
          simp only [Reader.load, List.filterMap_cons, hpa]
          have h2 := flatMap_set_perm (f := Option.toList) (b := some x) hps
          simp only [Option.toList, List.nil_append] at h2
          have h3 : (ps.flatMap Option.toList ++ x :: rest.filterMap parse).Perm ((x :: ps.flatMap Option.toList) ++ rest.filterMap parse) := List.perm_middle
          refine h3.trans (List.Perm.append_right _ ?_)
          exact h2.symm
        · have := h.bad
          show ((s.readers.set k _).map (Reader.bad parse)).sum + (s.todo.map (File.bad parse)).sum = _
          simp only [Option.isNone_some, Bool.false_eq_true, if_false, Nat.add_zero] at hs
          omega
        · show (s.readers.set k _).length = _
          rw [List.length_set]; exact h.num
        · intro j rest' ps' cf' hj
          rcases get_set_cases hj with ⟨rfl, h1⟩ | h1
          · cases h1
            rw [List.length_set]
            exact h.parsers _ _ _ _ hk
          · exact h.parsers j _ _ _ h1
        · intro j hj
          rcases get_set_cases hj with ⟨rfl, h1⟩ | h1
          · cases h1
          · exact h.fin j h1
        · intro hc
          rw [not_closing h hk rfl] at hc
          cases hc
        · have := h.errs
          show s.printed + ((s.readers.set k _).map Reader.fails).sum + (s.todo.map File.fails).sum = _
          omega
      · cases he
    · cases he
  | emit k p =>
    simp only [exec] at he
    split at he
    · cases he
    rename_i hp
    split at he
    · rename_i rest ps cf size r hk hcoll
      split at he
      · rename_i x hps
        cases he
        have hs := sum_set (f := Reader.bad parse) (b := Reader.file rest (ps.set p none) cf) hk
        have hs2 := sum_set (f := Reader.fails) (b := Reader.file rest (ps.set p none) cf) hk
        simp only [Reader.bad] at hs
        simp only [Reader.fails] at hs2
        have hco := h.coll
        rw [hcoll] at hco
        have hadd : (r.add x).certs.length + (r.add x).expired = r.certs.length + r.expired + 1 := by
          cases x with
          | none => simp only [Result.add]; omega
          | some y => simp only [Result.add, List.length_append, List.length_singleton]; omega
        refine ⟨?_, ?_, h.panic, ?_, ?_, ?_, ?_, ?_, h.full, h.cap, ?_, ?_, h.leaks⟩
        · refine h.perm.imp_left fun h1 => ?_
          refine List.Perm.trans ?_ h1
          show ((s.seen ++ [x]) ++ ((s.readers.set k _).flatMap (Reader.load parse) ++ s.todo.flatMap (File.load parse))).Perm _
          rw [List.append_assoc]
          apply List.Perm.append_left
          rw [← List.append_assoc]
          apply List.Perm.append_right
          have h2 := flatMap_set_perm (f := Reader.load parse) (b := Reader.file rest (ps.set p none) cf) hk
          have h3 := flatMap_set_perm (f := Option.toList) (b := none) hps
          simp only [Option.toList, List.nil_append] at h3
          -- h3 : [x] ++ set ~ ps.flatMap
          simp only [Reader.load] at h2
          have h4 : ([x] ++ ((ps.set p none).flatMap Option.toList ++ rest.filterMap parse)).Perm (ps.flatMap Option.toList ++ rest.filterMap parse) := by
            rw [← List.append_assoc]
            exact h3.append_right _
          -- cancel
          have h5 := (h4.append_right ((s.readers.set k (Reader.file rest (ps.set p none) cf)).flatMap (Reader.load parse))).trans h2
          rw [List.append_assoc] at h5
          have h6 : (((ps.set p none).flatMap Option.toList ++ rest.filterMap parse) ++ ([x] ++ (s.readers.set k (Reader.file rest (ps.set p none) cf)).flatMap (Reader.load parse))).Perm
              (((ps.set p none).flatMap Option.toList ++ rest.filterMap parse) ++ s.readers.flatMap (Reader.load parse)) := by
            refine List.Perm.trans ?_ h5
            rw [← List.append_assoc, ← List.append_assoc]
            exact List.perm_append_comm.append_right _
          exact (List.perm_append_left_iff _).1 h6
        · have := h.bad
          show ((s.readers.set k _).map (Reader.bad parse)).sum + (s.todo.map (File.bad parse)).sum = _
          omega
        · show (s.readers.set k _).length = _
          rw [List.length_set]; exact h.num
        · intro j rest' ps' cf' hj
          rcases get_set_cases hj with ⟨rfl, h1⟩ | h1
          · cases h1
            rw [List.length_set]
            exact h.parsers _ _ _ _ hk
          · exact h.parsers j _ _ _ h1
        · intro j hj
          rcases get_set_cases hj with ⟨rfl, h1⟩ | h1
          · cases h1
          · exact h.fin j h1
        · show (collect c size r x).Ok c.pb (s.seen ++ [x]) (s.out ++ s.chan)
          unfold collect
          split
          · rename_i hfull
            refine ⟨by omega, ?_⟩
            intro xs
            rw [List.append_assoc, hco.2]
            show _ ++ localBatches c.pb size r (x :: xs) = _
            rw [localBatches, if_pos hfull]
          · rename_i hfull
            refine ⟨by rw [hadd, hco.1], ?_⟩
            intro xs
            rw [List.append_assoc, hco.2]
            show _ ++ localBatches c.pb size r (x :: xs) = _
            rw [localBatches, if_neg hfull]
        · intro hc
          exfalso
          have : (collect c size r x).closing = true := hc
          unfold collect at this
          split at this <;> cases this
        · intro ho
          have := (h.over ho).1
          rw [hcoll] at this
          cases this
        · have := h.errs
          show s.printed + ((s.readers.set k _).map Reader.fails).sum + (s.todo.map File.fails).sum = _
          omega
      · cases he
    · cases he
  | fileDone k =>
    simp only [exec] at he
    split at he
    · cases he
    rename_i hp
    split at he
    · rename_i ps cf hk
      split at he
      · rename_i hall
        cases he
        have hs := sum_set (f := Reader.bad parse) (b := if cf then Reader.failing else Reader.idle) hk
        have hs2 := sum_set (f := Reader.fails) (b := if cf then Reader.failing else Reader.idle) hk
        have hnil : ps.flatMap Option.toList = [] := by
          rw [List.flatMap_eq_nil_iff]
          intro o ho
          have := List.all_eq_true.1 hall o ho
          cases o with
          | none => rfl
          | some y => cases this
        refine ⟨?_, ?_, h.panic, ?_, ?_, ?_, h.coll, ?_, h.full, h.cap, h.over, ?_, h.leaks⟩
        · refine h.perm.imp_left fun h1 => perm_move h1 (readers_perm hk ?_)
          have : (if cf then Reader.failing else Reader.idle : Reader α γ).load parse = [] := by cases cf <;> rfl
          rw [this]
          simp only [Reader.load, hnil]
          exact List.Perm.refl _
        · have := h.bad
          show ((s.readers.set k _).map (Reader.bad parse)).sum + (s.todo.map (File.bad parse)).sum = _
          have h0 : (if cf then Reader.failing else Reader.idle : Reader α γ).bad parse = 0 := by cases cf <;> rfl
          rw [h0] at hs
          simp only [Reader.bad, List.countP_nil] at hs
          omega
        · show (s.readers.set k _).length = _
          rw [List.length_set]; exact h.num
        · intro j rest' ps' cf' hj
          rcases get_set_cases hj with ⟨rfl, h1⟩ | h1
          · cases cf <;> cases h1
          · exact h.parsers j _ _ _ h1
        · intro j hj
          rcases get_set_cases hj with ⟨rfl, h1⟩ | h1
          · cases cf <;> cases h1
          · exact h.fin j h1
        · intro hc
          rw [not_closing h hk rfl] at hc
          cases hc
        · have := h.errs
          show s.printed + ((s.readers.set k _).map Reader.fails).sum + (s.todo.map File.fails).sum = _
          have h0 : (if cf then Reader.failing else Reader.idle : Reader α γ).fails = if cf then 1 else 0 := by cases cf <;> rfl
          rw [h0] at hs2
          simp only [Reader.fails] at hs2
          omega
      · cases he
    · cases he
  | report k =>
    simp only [exec] at he
    split at he
    · cases he
    rename_i hp
    split at he
    · rename_i hk
      cases he
      have hs := sum_set (f := Reader.bad parse) (b := Reader.idle) hk
      have hs2 := sum_set (f := Reader.fails) (b := Reader.idle) hk
      simp only [Reader.bad] at hs
      simp only [Reader.fails] at hs2
      refine ⟨?_, ?_, h.panic, ?_, ?_, ?_, h.coll, ?_, h.full, h.cap, h.over, ?_, h.leaks⟩
      · exact h.perm.imp_left fun h1 => perm_move h1 (readers_perm hk (List.Perm.refl _))
      · have := h.bad
        show ((s.readers.set k .idle).map (Reader.bad parse)).sum + (s.todo.map (File.bad parse)).sum = _
        omega
      · show (s.readers.set k _).length = _
        rw [List.length_set]; exact h.num
      · intro j rest' ps' cf' hj
        rcases get_set_cases hj with ⟨rfl, h1⟩ | h1
        · cases h1
        · exact h.parsers j _ _ _ h1
      · intro j hj
        rcases get_set_cases hj with ⟨rfl, h1⟩ | h1
        · cases h1
        · exact h.fin j h1
      · intro hc
        rw [not_closing h hk rfl] at hc
        cases hc
      · have := h.errs
        show s.printed + 1 + ((s.readers.set k .idle).map Reader.fails).sum + (s.todo.map File.fails).sum = _
        omega
    · cases he
  | flush =>
    simp only [exec] at he
    split at he
    · cases he
    split at he
    · rename_i hcap
      split at he
      · rename_i r hcoll
        cases he
        have hco := h.coll
        rw [hcoll] at hco
        refine ⟨h.perm, h.bad, h.panic, h.num, h.parsers, h.fin, ⟨rfl, ?_⟩, ?_, ?_, ?_, ?_, h.errs, h.leaks⟩
        · intro xs
          rw [hco.2]
          simp
        · intro hc; cases hc
        · intro b hb
          have : b ∈ s.out ++ (s.chan ++ [r]) := hb
          rw [← List.append_assoc, List.mem_append, List.mem_singleton] at this
          rcases this with h1 | rfl
          · exact h.full b h1
          · exact hco.1
        · show (s.chan ++ [r]).length ≤ c.cap
          rw [List.length_append]; exact hcap
        · intro ho
          have := (h.over ho).1
          rw [hcoll] at this
          cases this
      · rename_i r hcoll
        cases he
        have hco := h.coll
        rw [hcoll] at hco
        refine ⟨h.perm, h.bad, h.panic, h.num, h.parsers, h.fin, ?_, ?_, ?_, ?_, ?_, h.errs, h.leaks⟩
        · show localBatches _ _ _ _ = s.out ++ (s.chan ++ [r])
          rw [hco.2, List.append_assoc]
        · intro _
          exact h.closing (by rw [hcoll]; rfl)
        · intro b hb
          have : b ∈ s.out ++ (s.chan ++ [r]) := hb
          rw [← List.append_assoc, List.mem_append, List.mem_singleton] at this
          rcases this with h1 | rfl
          · exact h.full b h1
          · exact hco.1
        · show (s.chan ++ [r]).length ≤ c.cap
          rw [List.length_append]; exact hcap
        · intro ho
          have := (h.over ho).1
          rw [hcoll] at this
          cases this
      · cases he
    · cases he
  | stopColl =>
    simp only [exec] at he
    split at he
    · cases he
    split at he
    · rename_i size r hcoll
      split at he
      · rename_i hall
        cases he
        have hco := h.coll
        rw [hcoll] at hco
        refine ⟨h.perm, h.bad, h.panic, h.num, h.parsers, h.fin, ?_, fun _ => hall, h.full, h.cap, ?_, h.errs, h.leaks⟩
        · show Coll.Ok _ _ _ (if size > 0 then Coll.last r else Coll.ended)
          have h1 := hco.2 []
          rw [List.append_nil, localBatches] at h1
          split
          · rename_i hs
            rw [if_pos hs] at h1
            exact ⟨by have := hco.1; omega, h1⟩
          · rename_i hs
            rw [if_neg hs, List.append_nil] at h1
            exact h1
        · intro ho
          have := (h.over ho).1
          rw [hcoll] at this
          cases this
      · cases he
    · cases he
  | next =>
    simp only [exec] at he
    split at he
    · cases he
    rename_i hpo
    split at he
    · rename_i r rs hchan
      have hr : 0 < r.certs.length + r.expired := h.full r (by rw [hchan]; simp)
      split at he
      · rename_i hempty
        exfalso
        rw [Bool.and_eq_true, List.isEmpty_iff, beq_iff_eq] at hempty
        rw [hempty.1, hempty.2] at hr
        cases hr
      · cases he
        have heq : (s.out ++ [r]) ++ rs = s.out ++ s.chan := by rw [hchan]; simp
        have hcap := h.cap
        rw [hchan] at hcap
        refine ⟨h.perm, h.bad, h.panic, h.num, h.parsers, h.fin, ?_, h.closing, ?_, ?_, ?_, h.errs, h.leaks⟩
        · show s.coll.Ok c.pb s.seen ((s.out ++ [r]) ++ rs)
          rw [heq]; exact h.coll
        · show ∀ b ∈ (s.out ++ [r]) ++ rs, _
          rw [heq]; exact h.full
        · exact Nat.le_of_succ_le hcap
        · intro ho
          have ho' : s.over = true := ho
          rw [ho'] at hpo
          simp at hpo
    · rename_i hchan hcoll
      cases he
      exact ⟨h.perm, h.bad, h.panic, h.num, h.parsers, h.fin, h.coll, h.closing, h.full, h.cap, fun _ => ⟨hcoll, hchan⟩, h.errs, h.leaks⟩
    · cases he

theorem run_inv {c : Conf} {parse : α → Option (Row γ)} {files : List (File α)} {t : St α γ} (hr : Run c parse (init c files) t) : Inv c parse files t := by
  induction hr with
  | refl => exact init_inv c parse files
  | step e _ he ih => exact exec_inv ih he

end Fpki.LocalFetch
