import Verif.Model.Bulk
import Verif.Props.Fetch
import Verif.Props.Domain
import Verif.Props.Policies

/-!
# C123: `FetchAllCertificates`; C124: `UpdatePolicyCerts`
-/
namespace Fpki.Bulk

open Fpki.Fetch
open Fpki.Policy (Cert Time)
open Fpki.Domain (Psl isValidDomain exPsl asc)

variable {ε γ : Type}

/-! ## C123 -/

theorem collect_never (e : End) : ∀ (rs : List (Option (List γ))) (i : Nat) (certs : List γ), none ∉ rs → (∀ b, some b ∈ rs → 0 < b.length) →
    [DecidableEq γ] → e = .done → collect (fun _ => false) e i certs rs = .ok (certs ++ delivered rs) := by
  intro rs
  induction rs with
  | nil => intro i certs _ _ _ he; subst he; simp [collect, delivered]
  | cons r rs ih =>
    intro i certs hn hb _ he
    cases r with
    | none => exact absurd List.mem_cons_self hn
    | some b =>
      have hb0 : b ≠ [] := fun h => by have := hb b List.mem_cons_self; rw [h] at this; simp at this
      unfold collect
      dsimp only
      rw [if_neg (by simp), if_neg hb0, ih (i + 1) (certs ++ b) (fun h => hn (List.mem_cons_of_mem _ h)) (fun b' h => hb b' (List.mem_cons_of_mem _ h)) he]
      simp [delivered]

/-- What `collect` returns: everything the goroutine sent, or with an error a beginning of it. -/
theorem collect_cases [DecidableEq γ] (cancelled : Nat → Bool) (e : End) : ∀ (rs : List (Option (List γ))) (i : Nat) (certs : List γ),
    (∀ b, some b ∈ rs → 0 < b.length) →
    (∀ l, collect cancelled e i certs rs = .ok l → l = certs ++ delivered rs ∧ none ∉ rs ∧ e = .done) ∧
    (∀ l, collect cancelled e i certs rs = .err l → certs <+: l ∧ l <+: certs ++ delivered rs) ∧
    (collect cancelled e i certs rs = .panic → e = .panic) ∧
    (collect cancelled e i certs rs = .hang → e = .loop) := by
  intro rs
  induction rs with
  | nil =>
    intro i certs _
    unfold collect
    by_cases hc : cancelled i
    · rw [if_pos hc]
      refine ⟨(fun l h => by cases h), ?_, (fun h => by cases h), (fun h => by cases h)⟩
      intro l h
      cases h
      exact ⟨List.prefix_rfl, List.prefix_append _ _⟩
    · rw [if_neg hc]
      cases e with
      | done =>
        refine ⟨?_, (fun l h => by cases h), (fun h => by cases h), (fun h => by cases h)⟩
        intro l h
        cases h
        exact ⟨by simp [delivered], by simp, rfl⟩
      | panic => exact ⟨(fun l h => by cases h), (fun l h => by cases h), fun _ => rfl, (fun h => by cases h)⟩
      | loop => exact ⟨(fun l h => by cases h), (fun l h => by cases h), (fun h => by cases h), fun _ => rfl⟩
  | cons r rs ih =>
    intro i certs hb
    unfold collect
    by_cases hc : cancelled i
    · rw [if_pos hc]
      refine ⟨(fun l h => by cases h), ?_, (fun h => by cases h), (fun h => by cases h)⟩
      intro l h
      cases h
      exact ⟨List.prefix_rfl, List.prefix_append _ _⟩
    · rw [if_neg hc]
      cases r with
      | none =>
        refine ⟨(fun l h => by cases h), ?_, (fun h => by cases h), (fun h => by cases h)⟩
        intro l h
        cases h
        exact ⟨List.prefix_rfl, List.prefix_append _ _⟩
      | some b =>
        have hb0 : b ≠ [] := fun h => by have := hb b List.mem_cons_self; rw [h] at this; simp at this
        dsimp only
        rw [if_neg hb0]
        obtain ⟨h1, h2, h3, h4⟩ := ih (i + 1) (certs ++ b) (fun b' h => hb b' (List.mem_cons_of_mem _ h))
        have hd : delivered (some b :: rs) = b ++ delivered rs := by simp [delivered]
        rw [hd, ← List.append_assoc]
        refine ⟨?_, ?_, h3, h4⟩
        · intro l h
          obtain ⟨a1, a2, a3⟩ := h1 l h
          exact ⟨a1, by simp [a2], a3⟩
        · intro l h
          obtain ⟨a1, a2⟩ := h2 l h
          exact ⟨(List.prefix_append _ _).trans a1, a2⟩

/-- C123: if the server answers each query with a non-empty prefix of what was asked, every certificate can be parsed and the context is not cancelled, the call
returns exactly the certificates `start..stop`, in order, and no error. -/
theorem C123_all [DecidableEq γ] {log : Nat → ε} {srv : Server ε} (hh : Serves log srv) (parse : ε → Option γ) (cert : Nat → γ) (zero : ε)
    (sb pb fuel start stop : Nat) (hsb : 0 < sb) (hpb : 0 < pb) (hf : sb < fuel) (hse : start ≤ stop)
    (hp : ∀ i, start ≤ i → i ≤ stop → parse (log i) = some (cert i)) :
    fetchAll srv parse zero sb pb fuel start stop (fun _ => false) = .ok ((List.range (stop + 1 - start)).map (fun j => cert (start + j))) := by
  obtain ⟨h1, h2, h3, h4⟩ := C25_exact_range hh parse cert zero sb pb fuel start stop hsb hpb hf hse hp
  unfold fetchAll
  rw [if_neg (by omega), collect_never _ _ 0 [] h2 (fun b hb => (h4 b hb).1) h1, List.nil_append, h3]

/-- C123: whatever the server answers with entries of the log (errors, short or empty answers) and whenever the context is cancelled: a call that returns without an
error returns the whole range, in order; one that returns an error returns a beginning of it; no call panics; and it blocks forever only if the server answers
forever with nothing. -/
theorem C123_never_wrong [DecidableEq γ] {log : Nat → ε} {srv : Server ε} (hh : Honest log srv) (parse : ε → Option γ) (zero : ε)
    (sb pb fuel start stop : Nat) (hsb : 0 < sb) (hpb : 0 < pb) (hse : start ≤ stop) (cancelled : Nat → Bool) :
    (∀ l, fetchAll srv parse zero sb pb fuel start stop cancelled = .ok l → l.map some = slice (fun i => parse (log i)) start (stop + 1 - start)) ∧
    (∀ l, fetchAll srv parse zero sb pb fuel start stop cancelled = .err l → l.map some <+: slice (fun i => parse (log i)) start (stop + 1 - start)) ∧
    fetchAll srv parse zero sb pb fuel start stop cancelled ≠ .panic ∧
    (fetchAll srv parse zero sb pb fuel start stop cancelled = .hang → (fetch srv parse zero sb pb fuel start stop).2 = .loop) := by
  obtain ⟨h1, m, h2, h3, h4, h5⟩ := C25_never_wrong hh parse zero sb pb fuel start stop hsb hpb hse
  obtain ⟨c1, c2, c3, c4⟩ := collect_cases cancelled (fetch srv parse zero sb pb fuel start stop).2 (fetch srv parse zero sb pb fuel start stop).1 0 [] (fun b hb => (h5 b hb).1)
  unfold fetchAll
  rw [if_neg (by omega)]
  refine ⟨?_, ?_, fun h => h1 (c3 h), c4⟩
  · intro l hl
    obtain ⟨a1, a2, a3⟩ := c1 l hl
    rw [a1, List.nil_append, h2, h4 a3 a2]
  · intro l hl
    obtain ⟨_, a2⟩ := c2 l hl
    rw [List.nil_append] at a2
    have hm := a2.map some
    rw [h2] at hm
    refine hm.trans ?_
    rw [show stop + 1 - start = m + (stop + 1 - start - m) by omega, slice_add]
    exact List.prefix_append _ _

/-- C123: the empty range that follows an entry is accepted, and nothing is returned. -/
theorem C123_empty_range [DecidableEq γ] (srv : Server ε) (parse : ε → Option γ) (zero : ε) (sb pb fuel stop : Nat) :
    fetchAll srv parse zero sb pb fuel (stop + 1) stop (fun _ => false) = .ok [] := by
  unfold fetchAll
  rw [if_neg (by omega), C25_empty_range srv parse zero sb pb fuel (stop + 1) stop (by omega)]
  rfl

/-- C123 is violated for other empty ranges: if `start` is beyond `end + 1` the call does not return an empty answer (as the fetching goroutine does), it panics. -/
theorem C123_inverted_range_violated [DecidableEq γ] (srv : Server ε) (parse : ε → Option γ) (zero : ε) (sb pb fuel start stop : Nat) (cancelled : Nat → Bool)
    (h : stop + 1 < start) : fetchAll srv parse zero sb pb fuel start stop cancelled = .panic := by
  unfold fetchAll
  rw [if_pos h]

/-- A server that answers one entry at a time. -/
def oneByOne : Server Nat := fun _ s _ => some [s]

example : Serves (fun i => i) oneByOne := fun _ s e h => ⟨[s], rfl, by simp, by simp; omega, by simp [slice]⟩
example : fetchAll oneByOne some 0 2 3 5 4 11 (fun _ => false) = .ok [4, 5, 6, 7, 8, 9, 10, 11] := by decide +kernel
example : fetchAll oneByOne some 0 2 3 5 4 11 (fun i => i == 2) = .err [4, 5, 6, 7, 8, 9] := by decide +kernel

/-! ## C124 -/

/-- A piece of a text between two ends of lines. -/
def Piece (l : Bytes) : Prop := 10 ∉ l ∧ l.length < 65536

theorem scanFrom_piece (l rest : Bytes) : ∀ acc : Bytes, 10 ∉ l → scanFrom acc (l ++ rest) = scanFrom (acc ++ l) rest := by
  induction l with
  | nil => intro acc _; simp
  | cons b t ih =>
    intro acc h
    rw [List.cons_append, scanFrom, if_neg (fun hb => h (by rw [hb]; exact List.mem_cons_self)), ih _ (fun ht => h (List.mem_cons_of_mem _ ht))]
    simp

theorem scan_lines (ls : List Bytes) (last : Bytes) (h : ∀ l ∈ ls, Piece l) (hl : Piece last) :
    scan (ls.flatMap (· ++ [10]) ++ last) = (ls.map dropCR ++ (if last = [] then [] else [dropCR last]), false) := by
  unfold scan
  induction ls with
  | nil =>
    have := scanFrom_piece last [] [] hl.1
    rw [List.append_nil, List.nil_append] at this
    rw [List.flatMap_nil, List.nil_append, this, scanFrom]
    by_cases h0 : last = []
    · rw [if_pos h0, if_pos h0]; rfl
    · rw [if_neg h0, if_neg h0, if_pos (show last.length < maxToken from hl.2)]
      rfl
  | cons l ls ih =>
    have hp := h l List.mem_cons_self
    have e := ih (fun x hx => h x (List.mem_cons_of_mem _ hx))
    rw [List.flatMap_cons, List.append_assoc, List.append_assoc, scanFrom_piece l _ [] hp.1, List.nil_append, List.singleton_append, scanFrom, if_pos (show (10 : Byte) = 10 from rfl),
      if_pos (show l.length < maxToken from hp.2), e]
    rfl

theorem scan_long (ls : List Bytes) (long rest : Bytes) (h : ∀ l ∈ ls, Piece l) (hn : 10 ∉ long) (hl : 65536 ≤ long.length) (hr : rest = [] ∨ rest.head? = some 10) :
    (scan (ls.flatMap (· ++ [10]) ++ (long ++ rest))).2 = true := by
  unfold scan
  induction ls with
  | nil =>
    rw [List.flatMap_nil, List.nil_append, scanFrom_piece long rest [] hn, List.nil_append]
    have h0 : long ≠ [] := fun h0 => by rw [h0] at hl; simp at hl
    have hb : ¬ long.length < maxToken := by unfold maxToken; omega
    cases rest with
    | nil => rw [scanFrom, if_neg h0, if_neg hb]
    | cons b t =>
      rcases hr with hr | hr
      · cases hr
      · rw [List.head?_cons, Option.some.injEq] at hr
        rw [scanFrom, if_pos hr, if_neg hb]
  | cons l ls ih =>
    have hp := h l List.mem_cons_self
    rw [List.flatMap_cons, List.append_assoc, List.append_assoc, scanFrom_piece l _ [] hp.1, List.nil_append, List.singleton_append, scanFrom, if_pos (show (10 : Byte) = 10 from rfl),
      if_pos (show l.length < maxToken from hp.2)]
    exact ih (fun x hx => h x (List.mem_cons_of_mem _ hx))

theorem makeAll_domains (psl : Psl) (draw : Nat → Draw) : ∀ (ls : List Bytes) (i : Nat), (makeAll psl draw i ls).map (fun c => c.domain) = ls.filter (fun l => isValidDomain psl l) := by
  intro ls
  induction ls with
  | nil => intro i; rfl
  | cons l ls ih =>
    intro i
    unfold makeAll
    by_cases hv : isValidDomain psl l
    · rw [if_pos hv, List.map_cons, ih, List.filter_cons_of_pos hv]
      rfl
    · rw [if_neg hv, ih, List.filter_cons_of_neg hv]

theorem makeAll_made (psl : Psl) (draw : Nat → Draw) : ∀ (ls : List Bytes) (i : Nat), ∀ c ∈ makeAll psl draw i ls, ∃ l d, c = madeUp l d := by
  intro ls
  induction ls with
  | nil => intro i c hc; cases hc
  | cons l ls ih =>
    intro i c hc
    unfold makeAll at hc
    split at hc
    · rcases List.mem_cons.1 hc with h | h
      · exact ⟨_, _, h⟩
      · exact ih _ c h
    · exact ih _ c hc

/-- The lines of a file, without their ends (LF or CR LF), are these. -/
structure HasLines (text : Bytes) (names : List Bytes) : Prop where
  split : ∃ ls last : _, (∀ l ∈ ls, Piece l) ∧ Piece last ∧ text = ls.flatMap (· ++ [10]) ++ last ∧
    names = (ls ++ (if last = [] then [] else [last])).map (fun l => if l.getLast? = some 13 then l.dropLast else l)

/-- C124: from a file all of whose lines are shorter than 65536 bytes, one policy certificate is made for each line that is a valid domain name, in order, and none for
the others. -/
theorem C124_one_for_each_line (psl : Psl) (draw : Nat → Draw) (text : Bytes) (names : List Bytes) (h : HasLines text names) :
    ∃ certs, getPCAndRPCs psl draw (some (text, false)) = some certs ∧ certs.map (fun c => c.domain) = names.filter (fun l => isValidDomain psl l) ∧
      ∀ c ∈ certs, c.ownerSignature = none ∧ c.issuerSignature = none ∧ c.spcts = [] ∧ c.canIssue = false ∧ c.canOwn = false := by
  obtain ⟨ls, last, h1, h2, h3, h4⟩ := h.split
  have hs := scan_lines ls last h1 h2
  rw [← h3] at hs
  have hn : (scan text).1 = names := by
    rw [hs, h4, List.map_append]
    congr 1
    split <;> rfl
  refine ⟨makeAll psl draw 0 names, ?_, makeAll_domains psl draw names 0, ?_⟩
  · unfold getPCAndRPCs
    dsimp only
    rw [hn, hs]
    rfl
  · intro c hc
    obtain ⟨l, d, rfl⟩ := makeAll_made psl draw names 0 c hc
    exact ⟨rfl, rfl, rfl, rfl, rfl⟩

/-- C124: a file that cannot be opened or read, or with one line of 65536 bytes or more, is refused as a whole. -/
theorem C124_refused (psl : Psl) (draw : Nat → Draw) :
    getPCAndRPCs psl draw none = none ∧ (∀ text, getPCAndRPCs psl draw (some (text, true)) = none) ∧
    ∀ (ls : List Bytes) (long rest : Bytes), (∀ l ∈ ls, Piece l) → 10 ∉ long → 65536 ≤ long.length → (rest = [] ∨ rest.head? = some 10) →
      getPCAndRPCs psl draw (some (ls.flatMap (· ++ [10]) ++ (long ++ rest), false)) = none := by
  refine ⟨rfl, ?_, ?_⟩
  · intro text
    unfold getPCAndRPCs
    simp
  · intro ls long rest h hn hl hr
    unfold getPCAndRPCs
    dsimp only
    rw [scan_long ls long rest h hn hl hr]
    rfl

/-- C124 is violated: a call of `UpdatePolicyCerts` with a readable file returns no error, and the database is as it was: no policy of the file is stored. -/
theorem C124_stored_nowhere_violated (H : Bytes → Bytes) (psl : Psl) (draw : Nat → Draw) (text : Bytes) (names : List Bytes) (h : HasLines text names) (db : Db.DB) :
    (updatePolicyCerts psl draw (some (text, false)) db).1 = true ∧ (updatePolicyCerts psl draw (some (text, false)) db).2 = db ∧
    ∀ name payload, ¬ E2E.PolicyStored H db name payload → ¬ E2E.PolicyStored H (updatePolicyCerts psl draw (some (text, false)) db).2 name payload := by
  obtain ⟨certs, hc, _⟩ := C124_one_for_each_line psl draw text names h
  have e : updatePolicyCerts psl draw (some (text, false)) db = (true, db) := by
    unfold updatePolicyCerts
    rw [hc]
    rfl
  rw [e]
  exact ⟨rfl, rfl, fun _ _ h => h⟩

/-- C124: a call with a file that is refused returns an error, and the database is as it was. -/
theorem C124_refused_partial (psl : Psl) (draw : Nat → Draw) (file : FileRead) (db : δ) (h : getPCAndRPCs psl draw file = none) :
    updatePolicyCerts psl draw file db = (false, db) := by
  unfold updatePolicyCerts
  rw [h]

def exText : Bytes := asc "a.com" ++ [13, 10] ++ asc "com" ++ [10] ++ [10] ++ asc "*.b.com" ++ [10] ++ asc "-.com" ++ [10] ++ asc "c.d.com"

theorem exText_lines : HasLines exText [asc "a.com", asc "com", [], asc "*.b.com", asc "-.com", asc "c.d.com"] :=
  ⟨[asc "a.com" ++ [13], asc "com", [], asc "*.b.com", asc "-.com"], asc "c.d.com", by unfold Piece; decide +kernel, by unfold Piece; decide +kernel, by decide +kernel, by decide +kernel⟩

def exDraw (i : Nat) : Draw := ⟨⟨i, 0, 0, none⟩, ⟨i + 1, 0, 0, none⟩, ⟨i + 2, 0, 0, none⟩, [UInt8.ofNat i]⟩

example : (getPCAndRPCs exPsl exDraw (some (exText, false))).map (List.map (fun c => (c.domain, c.notBefore.ns, c.notAfter.ns, c.publicKey))) =
    some [(asc "a.com", 0, 1001, some [0]), (asc "*.b.com", 1, 1002, some [1]), (asc "c.d.com", 2, 1003, some [2])] := by decide +kernel
example : ¬ E2E.PolicyStored (fun b => b) Db.emptyDB (asc "a.com") [1] := fun h => by
  obtain ⟨c, hc, _⟩ := h.row
  cases hc

end Fpki.Bulk
