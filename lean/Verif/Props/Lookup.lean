import Verif.Model.Lookup
import Verif.Props.EndToEnd
import Verif.Props.Domain

/-!
# C121: certificates are found under their names
-/
namespace Fpki.E2E
open Fpki.Db Fpki.Smt Fpki.Dirty Fpki.Responder Fpki.Ids Fpki.Domain
open Fpki.Chains (X509)
open Fpki.Lookup

/-! ## The names of an answer -/

/-- The names of the answers are suffixes of the name that was asked for. -/
theorem parts_suffix {psl : Psl} (hp : IsPsl psl) {d : Bytes} {out : List Bytes} (h : parseDomainName psl d = some out) {n : Bytes} (hn : n ∈ out) : n <:+ removeWildCardAndWWW d := by
  obtain ⟨pre, e, h1, h2, h3, _⟩ := C52_parse hp h
  rw [h3] at hn
  obtain ⟨k, _, rfl⟩ := List.mem_map.1 hn
  have e1 : removeWildCardAndWWW d = joinDots (pre ++ e) := by rw [← h1, joinDots_split]
  rw [e1]
  have e2 : pre ++ e = pre.take (pre.length - k) ++ (pre.drop (pre.length - k) ++ e) := by rw [← List.append_assoc, List.take_append_drop]
  rw [e2, ← dotted_joinDots (c := pre.take (pre.length - k)) (by simp [h2])]
  exact List.suffix_append _ _

theorem parse_valid {psl : Psl} {d : Bytes} {out : List Bytes} (h : parseDomainName psl d = some out) : isValidDomain psl d = true := by
  unfold parseDomainName at h
  split at h
  · cases h
  · rename_i hv; simpa using hv

/-- Without the leading `*.` there is no `*` in a valid name. -/
theorem removed_no_star {psl : Psl} {d : Bytes} (h : isValidDomain psl d = true) : star ∉ removeWildCardAndWWW d := by
  have hv : viableDomain d = true := by
    unfold isValidDomain at h
    simp only [Bool.and_eq_true] at h
    exact h.1.1.1
  have key : star ∉ (if d.length > 2 ∧ d.take 2 = [star, dot] then d.drop 2 else d) := by
    unfold viableDomain at hv
    by_cases ht : d.take 2 = [star, dot]
    · rw [if_pos ht] at hv
      by_cases hl : d.length > 2
      · rw [if_pos ⟨hl, ht⟩]
        simpa using hv
      · have hd : d = [star, dot] := by
          rw [← ht, List.take_of_length_le (by omega)]
        subst hd
        have : isValidDomain psl [star, dot] = false := by
          unfold isValidDomain
          rw [show (split [star, dot]).all correctLabel = false by decide +kernel, Bool.and_false]
        rw [this] at h
        cases h
    · rw [if_neg ht] at hv
      rw [if_neg (fun h => ht h.2)]
      simpa using hv
  unfold removeWildCardAndWWW
  dsimp only
  generalize (if d.length > 2 ∧ d.take 2 = [star, dot] then d.drop 2 else d) = x at key ⊢
  split
  · exact fun hm => key (List.mem_of_mem_drop hm)
  · exact key

theorem removed_length (d : Bytes) : (removeWildCardAndWWW d).length ≤ d.length ∧ ((removeWildCardAndWWW d).length = d.length → removeWildCardAndWWW d = d) := by
  unfold removeWildCardAndWWW
  dsimp only
  split <;> split <;> simp_all <;> omega

/-- C121: whatever name is asked for, no answer is about a wildcard name. -/
theorem C121_no_wildcard_answers {psl : Psl} (hp : IsPsl psl) {d : Bytes} {out : List Bytes} (h : parseDomainName psl d = some out) {n : Bytes} (hn : n ∈ out) : star ∉ n :=
  fun hs => removed_no_star (parse_valid h) ((parts_suffix hp h hn).subset hs)

/-- C121: the answers to a question include one about the very name that was asked for exactly if the name does not begin with `*.` or `www.`. -/
theorem C121_own_name {psl : Psl} (hp : IsPsl psl) {d : Bytes} {out : List Bytes} (h : parseDomainName psl d = some out) : d ∈ out ↔ removeWildCardAndWWW d = d := by
  constructor
  · intro hm
    have h1 := (parts_suffix hp h hm).length_le
    obtain ⟨h2, h3⟩ := removed_length d
    exact h3 (by omega)
  · intro he
    have := C52_last hp h
    rw [he] at this
    exact List.mem_of_getLast? this

theorem removed_eq_iff (d : Bytes) : removeWildCardAndWWW d = d ↔ ¬ (d.length > 2 ∧ d.take 2 = [star, dot]) ∧ ¬ (d.length > 4 ∧ d.take 4 = asc "www.") := by
  constructor
  · intro h
    have hl : (removeWildCardAndWWW d).length = d.length := by rw [h]
    unfold removeWildCardAndWWW at hl
    dsimp only at hl
    constructor
    · intro h1
      rw [if_pos h1] at hl
      have := h1.1
      split at hl <;> simp only [List.length_drop] at hl <;> omega
    · intro h1
      have := h1.1
      split at hl
      · split at hl <;> simp only [List.length_drop] at hl <;> omega
      · simp only [List.length_drop] at hl
        omega
  · rintro ⟨h1, h2⟩
    unfold removeWildCardAndWWW
    dsimp only
    rw [if_neg h1, if_neg h2]

/-! ## Specification -/

/-- The client sees the ID of a certificate in the answers. -/
def Shown (as : List Response) (i : Bytes) : Prop := ∃ a ∈ as, a.proofType = PoP ∧ i ∈ bytesToIDs a.certIDs

/-- All answers are accepted by the client. -/
def Accepted (H : Bytes → Bytes) (as : List Response) : Prop := ∀ a ∈ as, verifyProofByDomain H a = some (a.proofType, true)

/-- A certificate was submitted, as a leaf or in a chain, with this ID, for this name. -/
def SubmittedFor (H : Bytes → Bytes) (ops : List Op) (n i : Bytes) : Prop :=
  ∃ leaf chain, Submitted ops leaf chain ∧ n ∈ leaf.names ∧ ∃ c ∈ leaf :: chain, i = H c.raw

/-- The hash of a submitted name is that of one of the given names only if it is the same name. -/
def NoClash (H : Bytes → Bytes) (ops : List Op) (parts : List Bytes) : Prop := ∀ n i, SubmittedFor H ops n i → ∀ m ∈ parts, H n = H m → n = m

/-- What can be seen, exactly. -/
theorem shown_iff {H : Bytes → Bytes} (hH : ∀ x, (H x).length = 32) {psl : Psl} {ops : List Op} {s : Sys} (hrun : Run H (ops ++ [.finish, .reload]) s)
    (hn : ∀ op ∈ ops, op.NoPrune) (hcm : ∀ op ∈ ops, op.Complete) (hc : Consistent H ops) {name : Bytes} {out : Option (List Response)}
    (h : GetProof H psl s.served (tableOf s.db) name out) {parts : List Bytes} (hp : parseDomainName psl name = some parts) :
    ∃ as, out = some as ∧ as.map Response.domainName = parts ∧ Accepted H as ∧ ∀ i, Shown as i ↔ ∃ n, SubmittedFor H ops n i ∧ ∃ m ∈ parts, H n = H m := by
  obtain ⟨h1, h2⟩ := C91_end_to_end_partial H hH psl ops s hrun hn hcm hc name out h
  rw [hp] at h1
  cases out with
  | none => cases h1
  | some as =>
    simp only [Option.map_some, Option.some.injEq] at h1
    have key : ∀ a ∈ as, ∀ i, (a.proofType = PoP ∧ i ∈ bytesToIDs a.certIDs) ↔ Belongs H ops a.domainName i := by
      intro a ha i
      obtain ⟨_, _, _, g4, g5⟩ := h2 as rfl a ha
      constructor
      · rintro ⟨hpt, hi⟩
        obtain ⟨_, ⟨cs, _, hcs, he⟩, _⟩ := g5 hpt
        rw [he, show cs.flatten = idsToBytes cs from rfl, C14_ids_roundtrip cs (fun x hx => by
          obtain ⟨_, _, _, _, c, _, rfl⟩ := (hcs x).1 hx
          exact hH _)] at hi
        exact (hcs i).1 hi
      · intro hb
        have hpt := g4.2 ⟨i, Or.inl hb⟩
        obtain ⟨_, ⟨cs, _, hcs, he⟩, _⟩ := g5 hpt
        refine ⟨hpt, ?_⟩
        rw [he, show cs.flatten = idsToBytes cs from rfl, C14_ids_roundtrip cs (fun x hx => by
          obtain ⟨_, _, _, _, c, _, rfl⟩ := (hcs x).1 hx
          exact hH _)]
        exact (hcs i).2 hb
    refine ⟨as, rfl, h1, fun a ha => (h2 as rfl a ha).2.2.1, fun i => ?_⟩
    constructor
    · rintro ⟨a, ha, hs⟩
      obtain ⟨leaf, chain, k1, ⟨n, k2, k3⟩, k4⟩ := (key a ha i).1 hs
      exact ⟨n, ⟨leaf, chain, k1, k2, k4⟩, a.domainName, by rw [← h1]; exact List.mem_map_of_mem ha, k3⟩
    · rintro ⟨n, ⟨leaf, chain, k1, k2, k4⟩, m, hm, k3⟩
      rw [← h1] at hm
      obtain ⟨a, ha, rfl⟩ := List.mem_map.1 hm
      exact ⟨a, ha, (key a ha i).2 ⟨leaf, chain, k1, ⟨n, k2, k3⟩, k4⟩⟩

/-- C121 (partial: as C91, without pruning and interruptions, and for names without `*.` and `www.`): a certificate that was submitted for a name, and all certificates of its chain, are seen
by every client that asks for that name, and the answers are accepted, if the name is one that can be asked for and does not begin with `*.` or `www.`. -/
theorem C121_found_partial (H : Bytes → Bytes) (hH : ∀ x, (H x).length = 32) (psl : Psl) (hpsl : IsPsl psl) (ops : List Op) (s : Sys) (hrun : Run H (ops ++ [.finish, .reload]) s)
    (hn : ∀ op ∈ ops, op.NoPrune) (hcm : ∀ op ∈ ops, op.Complete) (hc : Consistent H ops) (n i : Bytes) (hsub : SubmittedFor H ops n i)
    (hparse : (parseDomainName psl n).isSome = true) (hplain : removeWildCardAndWWW n = n) (out : Option (List Response)) (h : GetProof H psl s.served (tableOf s.db) n out) :
    ∃ as, out = some as ∧ Accepted H as ∧ Shown as i := by
  obtain ⟨parts, hp⟩ := Option.isSome_iff_exists.1 hparse
  obtain ⟨as, h1, h2, h3, h4⟩ := shown_iff hH hrun hn hcm hc h hp
  exact ⟨as, h1, h3, (h4 i).2 ⟨n, hsub, n, (C121_own_name hpsl hp).2 hplain, rfl⟩⟩

/-- C121 (partial: as C91): the same for clients that ask for a name below: they see the certificates of every parent of the name they ask for, up to the e2LD; and barring collisions of the
hash they see nothing else. -/
theorem C121_exactly_partial (H : Bytes → Bytes) (hH : ∀ x, (H x).length = 32) (psl : Psl) (ops : List Op) (s : Sys) (hrun : Run H (ops ++ [.finish, .reload]) s)
    (hn : ∀ op ∈ ops, op.NoPrune) (hcm : ∀ op ∈ ops, op.Complete) (hc : Consistent H ops) (name : Bytes) (parts : List Bytes) (hp : parseDomainName psl name = some parts)
    (hno : NoClash H ops parts) (out : Option (List Response)) (h : GetProof H psl s.served (tableOf s.db) name out) :
    ∃ as, out = some as ∧ Accepted H as ∧ ∀ i, Shown as i ↔ ∃ n ∈ parts, SubmittedFor H ops n i := by
  obtain ⟨as, h1, h2, h3, h4⟩ := shown_iff hH hrun hn hcm hc h hp
  refine ⟨as, h1, h3, fun i => (h4 i).trans ⟨?_, ?_⟩⟩
  · rintro ⟨n, k1, m, k2, k3⟩
    cases hno n i k1 m k2 k3
    exact ⟨n, k2, k1⟩
  · rintro ⟨n, k1, k2⟩
    exact ⟨n, k2, n, k1, rfl⟩

/-- C121 is violated for wildcard certificates: a certificate that was submitted only for names with `*` is never seen, whatever name a client asks for (barring collisions), although all
answers are accepted. -/
theorem C121_wildcard_violated (H : Bytes → Bytes) (hH : ∀ x, (H x).length = 32) (psl : Psl) (hpsl : IsPsl psl) (ops : List Op) (s : Sys) (hrun : Run H (ops ++ [.finish, .reload]) s)
    (hn : ∀ op ∈ ops, op.NoPrune) (hcm : ∀ op ∈ ops, op.Complete) (hc : Consistent H ops) (i : Bytes) (hwild : ∀ n, SubmittedFor H ops n i → star ∈ n)
    (name : Bytes) (hno : ∀ parts, parseDomainName psl name = some parts → NoClash H ops parts) (out : Option (List Response)) (h : GetProof H psl s.served (tableOf s.db) name out) :
    ∀ as, out = some as → Accepted H as ∧ ¬ Shown as i := by
  intro as has
  cases hp : parseDomainName psl name with
  | none =>
    unfold GetProof at h
    rw [hp] at h
    rw [show out = none from h] at has
    cases has
  | some parts =>
    obtain ⟨as', h1, h2, h3⟩ := C121_exactly_partial H hH psl ops s hrun hn hcm hc name parts hp (hno parts hp) out h
    rw [has, Option.some.injEq] at h1
    subst h1
    refine ⟨h2, fun hs => ?_⟩
    obtain ⟨n, hm, hsub⟩ := (h3 i).1 hs
    exact C121_no_wildcard_answers hpsl hp hm (hwild n hsub)

/-- C121 is violated for `www.`: a certificate that was submitted only for a name that begins with `www.` (or `*.`) is not seen by a client that asks for exactly this name. -/
theorem C121_www_violated (H : Bytes → Bytes) (hH : ∀ x, (H x).length = 32) (psl : Psl) (hpsl : IsPsl psl) (ops : List Op) (s : Sys) (hrun : Run H (ops ++ [.finish, .reload]) s)
    (hn : ∀ op ∈ ops, op.NoPrune) (hcm : ∀ op ∈ ops, op.Complete) (hc : Consistent H ops) (name i : Bytes) (honly : ∀ n, SubmittedFor H ops n i → n = name)
    (hwww : removeWildCardAndWWW name ≠ name) (hno : ∀ parts, parseDomainName psl name = some parts → NoClash H ops parts) (out : Option (List Response))
    (h : GetProof H psl s.served (tableOf s.db) name out) : ∀ as, out = some as → Accepted H as ∧ ¬ Shown as i := by
  intro as has
  cases hp : parseDomainName psl name with
  | none =>
    unfold GetProof at h
    rw [hp] at h
    rw [show out = none from h] at has
    cases has
  | some parts =>
    obtain ⟨as', h1, h2, h3⟩ := C121_exactly_partial H hH psl ops s hrun hn hcm hc name parts hp (hno parts hp) out h
    rw [has, Option.some.injEq] at h1
    subst h1
    refine ⟨h2, fun hs => ?_⟩
    obtain ⟨n, hm, hsub⟩ := (h3 i).1 hs
    cases honly n hsub
    exact hwww ((C121_own_name hpsl hp).1 hm)

/-- C121 is violated for upper-case letters: names are compared byte by byte. A certificate that was submitted only for names with an upper-case letter is not seen by a client that asks for
a name without one. -/
theorem C121_case_violated (H : Bytes → Bytes) (hH : ∀ x, (H x).length = 32) (psl : Psl) (hpsl : IsPsl psl) (ops : List Op) (s : Sys) (hrun : Run H (ops ++ [.finish, .reload]) s)
    (hn : ∀ op ∈ ops, op.NoPrune) (hcm : ∀ op ∈ ops, op.Complete) (hc : Consistent H ops) (i : Bytes) (hupper : ∀ n, SubmittedFor H ops n i → ∃ c ∈ n, 65 ≤ c ∧ c ≤ 90)
    (name : Bytes) (hlower : ∀ c ∈ name, ¬ (65 ≤ c ∧ c ≤ 90)) (hno : ∀ parts, parseDomainName psl name = some parts → NoClash H ops parts) (out : Option (List Response))
    (h : GetProof H psl s.served (tableOf s.db) name out) : ∀ as, out = some as → Accepted H as ∧ ¬ Shown as i := by
  intro as has
  cases hp : parseDomainName psl name with
  | none =>
    unfold GetProof at h
    rw [hp] at h
    rw [show out = none from h] at has
    cases has
  | some parts =>
    obtain ⟨as', h1, h2, h3⟩ := C121_exactly_partial H hH psl ops s hrun hn hcm hc name parts hp (hno parts hp) out h
    rw [has, Option.some.injEq] at h1
    subst h1
    refine ⟨h2, fun hs => ?_⟩
    obtain ⟨n, hm, hsub⟩ := (h3 i).1 hs
    obtain ⟨c, k1, k2⟩ := hupper n hsub
    refine hlower c ?_ k2
    have h5 := (parts_suffix hpsl hp hm).subset k1
    unfold removeWildCardAndWWW at h5
    dsimp only at h5
    have k3 : ∀ (x : Bytes) (p : Prop) [Decidable p] (k : Nat), c ∈ (if p then x.drop k else x) → c ∈ x := by
      intro x p _ k hc
      split at hc
      · exact List.mem_of_mem_drop hc
      · exact hc
    exact k3 _ _ _ (k3 _ _ _ h5)

/-- C121: a client that asks for a name with `*.` or `www.` in front gets the answers for the name without it. -/
theorem C121_same_answers (H : Bytes → Bytes) (psl : Psl) (t : Node) (table : Bytes → Row) (name : Bytes) (hv : isValidDomain psl name = true)
    (hv' : isValidDomain psl (removeWildCardAndWWW name) = true) (hplain : removeWildCardAndWWW (removeWildCardAndWWW name) = removeWildCardAndWWW name) (out : Option (List Response)) :
    GetProof H psl t table name out ↔ GetProof H psl t table (removeWildCardAndWWW name) out := by
  have : parseDomainName psl name = parseDomainName psl (removeWildCardAndWWW name) := by
    unfold parseDomainName
    rw [hv, hv', hplain]
  unfold GetProof
  rw [this]

/-! ## Names of certificates -/

/-- C121: the names of a certificate are its common name and its DNS names, each once and as they are. -/
theorem C121_names (commonName : Bytes) (dnsNames out : List Bytes) (h : ExtractCertDomains commonName dnsNames out) :
    out.Nodup ∧ ∀ n, n ∈ out ↔ (n = commonName ∧ commonName ≠ []) ∨ n ∈ dnsNames := by
  unfold ExtractCertDomains at h
  refine ⟨h.nodup_iff.2 (List.nodup_dedup _), fun n => ?_⟩
  rw [h.mem_iff, List.mem_dedup, List.mem_append]
  by_cases hc : commonName = []
  · simp [hc]
  · rw [if_pos (by simpa using hc)]
    simp [hc]

/-- C121: the subject is the common name, or else the first DNS name that is not empty; it is one of the names of the certificate, unless it is empty, and then all names are empty. -/
theorem C121_subject (commonName : Bytes) (dnsNames out : List Bytes) (h : ExtractCertDomains commonName dnsNames out) :
    (certSubjectName commonName dnsNames ≠ [] → certSubjectName commonName dnsNames ∈ out) ∧ (certSubjectName commonName dnsNames = [] → ∀ n ∈ out, n = []) ∧
      (commonName ≠ [] → certSubjectName commonName dnsNames = commonName) := by
  obtain ⟨_, h2⟩ := C121_names _ _ _ h
  unfold certSubjectName
  by_cases hc : commonName = []
  · rw [if_neg (by simpa using hc)]
    cases hf : dnsNames.find? (fun n => decide (n ≠ [])) with
    | none =>
      refine ⟨fun h => absurd rfl h, fun _ n hn => ?_, fun h => absurd hc h⟩
      rcases (h2 n).1 hn with ⟨rfl, h⟩ | hm
      · exact absurd hc h
      · have := List.find?_eq_none.1 hf n hm
        simpa using this
    | some x =>
      have h3 := List.find?_some hf
      exact ⟨fun _ => (h2 x).2 (Or.inr (List.mem_of_find?_eq_some hf)), fun h => by simp only [Option.getD_some] at h; simp [h] at h3, fun h => absurd hc h⟩
  · rw [if_pos hc]
    exact ⟨fun _ => (h2 _).2 (Or.inl ⟨rfl, hc⟩), fun h => absurd h hc, fun _ => rfl⟩

/-! ## Examples -/

/-- Certificates for a plain name and for a wildcard, one with an intermediate certificate. -/
def exWild : List Op := [.certs [⟨[7], [asc "*.a.com"], 90⟩, ⟨[8], [asc "a.com"], 90⟩] [[], []] 4]

theorem exWild_sub (l : X509) (c : List X509) : Submitted exWild l c ↔ (l = ⟨[7], [asc "*.a.com"], 90⟩ ∨ l = ⟨[8], [asc "a.com"], 90⟩) ∧ c = [] := by
  constructor
  · rintro ⟨ls, cs, k, h1, h2⟩
    simp only [exWild, List.mem_cons, List.not_mem_nil, or_false, Op.certs.injEq] at h1
    obtain ⟨rfl, rfl, rfl⟩ := h1
    simp only [List.zip_cons_cons, List.zip_nil_right, List.mem_cons, List.not_mem_nil, or_false, Prod.mk.injEq] at h2
    rcases h2 with ⟨rfl, rfl⟩ | ⟨rfl, rfl⟩ <;> simp
  · rintro ⟨h, rfl⟩
    refine ⟨_, _, _, List.mem_cons_self, ?_⟩
    rcases h with rfl | rfl <;> simp

/-- Both are stored and put into the tree; for every name that does not begin with many letters in common nothing clashes; the wildcard certificate is never seen, the other one is. -/
example : ∃ (ops : List Op) (s : Sys), Run exH (ops ++ [.finish, .reload]) s ∧ (∀ op ∈ ops, op.NoPrune) ∧ (∀ op ∈ ops, op.Complete) ∧ Consistent exH ops ∧
    SubmittedFor exH ops (asc "*.a.com") (exH [7]) ∧ (∀ n, SubmittedFor exH ops n (exH [7]) → star ∈ n) ∧
    SubmittedFor exH ops (asc "a.com") (exH [8]) ∧ parseDomainName exPsl (asc "x.a.com") = some [asc "a.com", asc "x.a.com"] ∧ NoClash exH ops [asc "a.com", asc "x.a.com"] := by
  have hn : ∀ op ∈ exWild, op.NoPrune := by simp [exWild, Op.NoPrune]
  have hcm : ∀ op ∈ exWild, op.Complete := by simp [exWild, Op.Complete]
  have h1 : ∃ db1, (certSteps exH start.db [⟨[7], [asc "*.a.com"], 90⟩, ⟨[8], [asc "a.com"], 90⟩] [[], []]).map (fun st => runSteps (st.take 4) start.db) = some db1 := by
    have : ((certSteps exH start.db [⟨[7], [asc "*.a.com"], 90⟩, ⟨[8], [asc "a.com"], 90⟩] [[], []]).map (fun st => runSteps (st.take 4) start.db)).isSome = true := by decide +kernel
    exact Option.isSome_iff_exists.1 this
  obtain ⟨db1, h1⟩ := h1
  have r := Run.nil.more (step_certs (s := start) rfl h1)
  obtain ⟨ps, s, hr⟩ := C91_update_completes_partial exH exH_length exWild _ r hn hcm
  have hsub : ∀ l c, Submitted (exWild ++ ps.map .coalesce) l c ↔ Submitted exWild l c := by
    intro l c
    constructor
    · rintro ⟨ls, cs, k, h2, h3⟩
      rcases List.mem_append.1 h2 with h2 | h2
      · exact ⟨ls, cs, k, h2, h3⟩
      · obtain ⟨_, _, h4⟩ := List.mem_map.1 h2; cases h4
    · rintro ⟨ls, cs, k, h2, h3⟩
      exact ⟨ls, cs, k, List.mem_append_left _ h2, h3⟩
  have hfor : ∀ n i, SubmittedFor exH (exWild ++ ps.map .coalesce) n i → (n = asc "*.a.com" ∧ i = exH [7]) ∨ (n = asc "a.com" ∧ i = exH [8]) := by
    rintro n i ⟨l, c, k1, k2, x, k3, k4⟩
    obtain ⟨rfl | rfl, rfl⟩ := (exWild_sub l c).1 ((hsub l c).1 k1)
    · simp only [List.mem_singleton] at k2 k3
      subst k2 k3
      exact Or.inl ⟨rfl, k4⟩
    · simp only [List.mem_singleton] at k2 k3
      subst k2 k3
      exact Or.inr ⟨rfl, k4⟩
  have e78 : exH [7] ≠ exH [8] := by decide +kernel
  refine ⟨exWild ++ ps.map .coalesce, s, hr, ?_, ?_, ⟨?_, ?_⟩, ?_, ?_, ?_, by decide +kernel, ?_⟩
  · intro op ho
    rcases List.mem_append.1 ho with h | h
    · exact hn op h
    · obtain ⟨_, _, rfl⟩ := List.mem_map.1 h; exact True.intro
  · intro op ho
    rcases List.mem_append.1 ho with h | h
    · exact hcm op h
    · obtain ⟨_, _, rfl⟩ := List.mem_map.1 h; exact True.intro
  · intro l c l' c' h h' j j' x x' hx hx' he
    obtain ⟨hl, rfl⟩ := (exWild_sub l c).1 ((hsub l c).1 h)
    obtain ⟨hl', rfl⟩ := (exWild_sub l' c').1 ((hsub l' c').1 h')
    match j, j', hx, hx' with
    | 0, 0, hx, hx' =>
      cases hx; cases hx'
      rcases hl with rfl | rfl <;> rcases hl' with rfl | rfl
      · exact ⟨rfl, fun n => Iff.rfl⟩
      · exact absurd he e78
      · exact absurd he.symm e78
      · exact ⟨rfl, fun n => Iff.rfl⟩
    | j + 1, _, hx, _ => cases hx
    | _, j + 1, _, hx => cases hx
  · rintro p p' ⟨a, b, k, h2, h3⟩
    rcases List.mem_append.1 h2 with h2 | h2
    · simp [exWild] at h2
    · obtain ⟨_, _, h4⟩ := List.mem_map.1 h2; cases h4
  · exact ⟨_, _, (hsub _ _).2 ((exWild_sub _ _).2 ⟨Or.inl rfl, rfl⟩), List.mem_singleton.2 rfl, _, List.mem_singleton.2 rfl, rfl⟩
  · intro n h
    rcases hfor n _ h with ⟨rfl, _⟩ | ⟨_, h⟩
    · decide +kernel
    · exact absurd h e78
  · exact ⟨_, _, (hsub _ _).2 ((exWild_sub _ _).2 ⟨Or.inr rfl, rfl⟩), List.mem_singleton.2 rfl, _, List.mem_singleton.2 rfl, rfl⟩
  · intro n i h m hm he
    rcases hfor n i h with ⟨rfl, _⟩ | ⟨rfl, _⟩
    · simp only [List.mem_cons, List.not_mem_nil, or_false] at hm
      rcases hm with rfl | rfl <;> exact absurd he (by decide +kernel)
    · simp only [List.mem_cons, List.not_mem_nil, or_false] at hm
      rcases hm with rfl | rfl
      · rfl
      · exact absurd he (by decide +kernel)

example : (parseDomainName exPsl (asc "www.a.com")) = some [asc "a.com"] ∧ removeWildCardAndWWW (asc "www.a.com") ≠ asc "www.a.com" ∧
    (parseDomainName exPsl (asc "b.www.a.com")) = some [asc "a.com", asc "www.a.com", asc "b.www.a.com"] ∧
    (parseDomainName exPsl (asc "*.a.com")) = some [asc "a.com"] ∧ removeWildCardAndWWW (asc "mail.a.com") = asc "mail.a.com" := by decide +kernel

example : certSubjectName [] [[], asc "a.com", asc "b.com"] = asc "a.com" ∧ ExtractCertDomains (asc "a.com") [asc "b.com", asc "a.com"] [asc "b.com", asc "a.com"] := by
  refine ⟨by decide +kernel, ?_⟩
  unfold ExtractCertDomains
  rw [show ((if (asc "a.com").length ≠ 0 then [asc "a.com"] else []) ++ [asc "b.com", asc "a.com"]).dedup = [asc "b.com", asc "a.com"] by decide +kernel]

end Fpki.E2E
