import Verif.Model.Wire
import Verif.Lemmas.Reflect
import Verif.Lemmas.JsonPrefix
import Verif.Props.Responder
import Verif.Props.Config
import Mathlib.Tactic.Tauto
/-!
# C103: what the client reads is what the map server answered; C104: the check of the client on everything that can be received
-/
namespace Fpki.Wire

open Fpki.Json Fpki.Reflect
open Fpki.Policy (fixUtf8)
open Fpki.Domain (asc Psl IsPsl)
open Fpki.Smt (Node heightByte defaultLeaf verifyPath verifyInclusion verifyNonInclusion merkleProof rootHash run GoodHist KVs sameBits WF)
open Fpki.Responder (PoA PoP Response Row GetProof AnswerFor verifyProofByDomain InSync)

/-! ## Specification -/

/-- The arrays have 32 bytes and the type of the proof is an `int`: always so in Go. -/
structure Answer.Typed (a : Answer) : Prop where
  type : -(2 ^ 63) ≤ a.proofType ∧ a.proofType < 2 ^ 63
  arrays : ∀ e, a.entry = some e → e.id.length = 32 ∧ e.value.length = 32 ∧ e.certIDsID.length = 32 ∧ e.policyIDsID.length = 32

/-- The answer with what is not UTF-8 in the name replaced. -/
def Answer.clean (a : Answer) : Answer := { a with entry := a.entry.map fun e => { e with name := fixUtf8 e.name } }

/-- The answer, field by field, as `Responder` has it. -/
structure Shows (a : Answer) (r : Response) : Prop where
  entry : ∃ e, a.entry = some e ∧ e.name = r.domainName ∧ e.id = r.domainID ∧ e.value = r.domainValue ∧ e.certIDs.getD [] = r.certIDs ∧ e.policyIDs.getD [] = r.policyIDs
  type : a.proofType = r.proofType
  path : a.path = r.proof
  root : a.root = r.root
  key : a.proofKey.getD [] = r.proofKey
  value : a.proofValue.getD [] = r.proofValue

/-- responder.go:65-125 `GetProof` with all fields; `sth` is the signed tree head. -/
def Serves (H : Bytes → Bytes) (psl : Psl) (t : Node) (table : Bytes → Row) (sth : Option Bytes) (name : Bytes) (out : Option (List Answer)) : Prop :=
  match out with
  | none => GetProof H psl t table name none
  | some as => ∃ rs, GetProof H psl t table name (some rs) ∧ List.Forall₂ Shows as rs ∧ ∀ a ∈ as, a.Typed ∧ a.sig = sth

/-! ## C103 -/

theorem answer_wf : wf answerShape = true := by decide +kernel

theorem proofs_wf : wf proofsShape = true := by decide +kernel

theorem answer_exact (a : Answer) (h : a.Typed) : Exact answerShape (answerV a) := by
  have he : Exact (.ptr entryShape) (entryPtrV a.entry) := by
    cases hc : a.entry with
    | none => simp only [entryPtrV, Exact]
    | some e =>
      obtain ⟨h1, h2, h3, h4⟩ := h.arrays e hc
      unfold entryShape entryPtrV entryV
      simp only [Exact, Exacts, and_true, true_and]
      exact ⟨h1, h2, h3, h4⟩
  have hp : Exact (.slice .bytes) (pathV a.proof) := by
    cases a.proof with
    | none => simp only [pathV, Exact]
    | some l =>
      simp only [pathV, Exact]
      intro v hv
      obtain ⟨b, _, rfl⟩ := List.mem_map.1 hv
      simp only [Exact]
  unfold answerShape answerV poiShape
  rw [Exact]
  simp only [Exacts, and_true]
  refine ⟨he, ?_, by simp only [Exact]⟩
  rw [Exact]
  simp only [Exacts, and_true]
  exact ⟨by simp only [Exact]; exact h.type, hp, by simp only [Exact], by simp only [Exact], by simp only [Exact]⟩

theorem norm_answer (a : Answer) : norm answerShape (answerV a) = answerV a.clean := by
  have he : norm (.ptr entryShape) (entryPtrV a.entry) = entryPtrV a.clean.entry := by
    unfold Answer.clean
    cases hc : a.entry with
    | none => simp only [entryPtrV, norm, Option.map_none]
    | some e =>
      unfold entryShape entryPtrV entryV
      simp only [norm, norms, Bool.false_and, Option.map_some, Bool.false_eq_true, if_false]
  have hp : norm (.slice .bytes) (pathV a.proof) = (pathV a.proof) := by
    cases a.proof with
    | none => simp only [pathV, norm]
    | some l =>
      have : (norm Shape.bytes ∘ V.bytes) = V.bytes := by
        funext b
        simp only [Function.comp, norm]
      rw [pathV, norm, List.map_map, this]
  unfold answerShape answerV poiShape
  rw [norm]
  simp only [norms, Bool.false_and, Bool.false_eq_true, if_false]
  rw [norm]
  simp only [norms, Bool.false_and, Bool.false_eq_true, if_false]
  rw [he, hp]
  simp only [norm]
  rfl

theorem answer_back (a : Answer) : answerOf (answerV a) = a := by
  obtain ⟨e, t, p, r, k, v, s⟩ := a
  unfold answerV answerOf
  dsimp only
  cases e <;> cases p <;> simp [entryPtrV, pathV, entryOf, entryV, bytesV, Function.comp_def]

/-- Any time: the shapes here have none. -/
theorem answer_writes (a : Answer) (h : a.Typed) : ∃ j, encJ answerShape (answerV a) = some j := by
  unfold answerShape answerV poiShape
  have he : ∃ j, encJ (.ptr entryShape) (entryPtrV a.entry) = some j := by
    cases a.entry with
    | none => exact ⟨_, by rw [entryPtrV, encJ]⟩
    | some e =>
      obtain ⟨n, i, v, ci, c, pi, p⟩ := e
      unfold entryShape entryPtrV entryV
      cases c <;> cases p <;> simp [encJ, encFields]
  have hp : ∃ j, encJ (.slice .bytes) (pathV a.proof) = some j := by
    cases a.proof with
    | none => exact ⟨_, by rw [pathV, encJ]⟩
    | some l =>
      obtain ⟨js, hjs⟩ := elems_writes (encJ .bytes) (l.map .bytes) (by
        intro v hv
        obtain ⟨b, _, rfl⟩ := List.mem_map.1 hv
        cases b <;> exact ⟨_, by rw [encJ]⟩)
      exact ⟨_, by rw [pathV, encJ, hjs]; rfl⟩
  have hb : ∀ b : Option Bytes, ∃ j, encJ .bytes (.bytes b) = some j := fun b => by cases b <;> exact ⟨_, by rw [encJ]⟩
  obtain ⟨j1, h1⟩ := he
  obtain ⟨j2, h2⟩ := hp
  obtain ⟨j3, h3⟩ := hb a.root
  obtain ⟨j4, h4⟩ := hb a.proofKey
  obtain ⟨j5, h5⟩ := hb a.proofValue
  obtain ⟨j6, h6⟩ := hb a.sig
  have h7 : encJ .int (.int a.proofType) = some (.num (Config.intText a.proofType)) := by rw [encJ]
  rw [encJ]
  simp only [encFields, Bool.false_and, Bool.false_eq_true, if_false, h1, h6]
  rw [encJ]
  simp only [encFields, Bool.false_and, Bool.false_eq_true, if_false, h2, h3, h4, h5, h7, Option.map_some]
  exact ⟨_, rfl⟩

/-- The answers behind pointers are written like the answers. -/
theorem enc_ptrs (s : Shape) : ∀ l : List V, encElems (encJ (.ptr s)) (l.map .ptr) = encElems (encJ s) l
  | [] => by rw [List.map_nil, encElems, encElems]
  | v :: l => by rw [List.map_cons, encElems, encElems, enc_ptrs s l, encJ]

theorem answers_write (as : List Answer) (h : ∀ a ∈ as, a.Typed) : ∃ js, encElems (encJ answerShape) (as.map answerV) = some js := by
  apply elems_writes
  intro v hv
  obtain ⟨a, ha, rfl⟩ := List.mem_map.1 hv
  exact answer_writes a (h a ha)

theorem parseFirst_render (j : J) (h : Ints j) (rest : Bytes) (hr : Ends rest) : parseFirst (render j ++ rest) = some (fix j) := by
  unfold parseFirst
  have hc := cost_le j h
  rw [parse_value j h _ (by rw [List.length_append]; omega) rest hr]
  rfl

/-- C103: over HTTP, `apiGetProof` answers with status 200, and the client reads exactly the answers, in order, with all fields; only bytes in names that are not UTF-8 are replaced. -/
theorem C103_http (as : List Answer) (h : ∀ a ∈ as, a.Typed) : ∃ body, apiGetProof (some as) = .ok body ∧ readHttp body = some (as.map Answer.clean) := by
  obtain ⟨js, hjs⟩ := answers_write as h
  have he : encJ (.slice answerShape) (.slice (as.map answerV)) = some (.arr js) := by rw [encJ, hjs]; rfl
  have hp : encJ (.slice (.ptr answerShape)) (.slice (as.map fun a => .ptr (answerV a))) = some (.arr js) := by
    have := enc_ptrs answerShape (as.map answerV)
    rw [List.map_map] at this
    rw [hjs] at this
    rw [encJ]
    rw [show (V.ptr ∘ answerV) = fun a => V.ptr (answerV a) from rfl] at this
    rw [this]
    rfl
  obtain ⟨h1, h2⟩ := dec_enc (.slice answerShape) (by decide +kernel) _ _ (by
    rw [Exact]
    intro v hv
    obtain ⟨a, ha, rfl⟩ := List.mem_map.1 hv
    exact answer_exact a (h a ha)) he
  refine ⟨render (.arr js) ++ [0x0A], ?_, ?_⟩
  · unfold apiGetProof httpBody
    dsimp only
    rw [hp]
  · unfold readHttp
    rw [parseFirst_render _ h1 _ (by intro c t e; cases e; decide)]
    dsimp only
    unfold inflate
    rw [h2, norm]
    dsimp only [elemsOf]
    rw [List.map_map, List.map_map]
    congr 1
    apply List.map_congr_left
    intro a _
    simp only [Function.comp, norm_answer, answer_back]

/-- C103: the same over gRPC. -/
theorem C103_grpc (as : List Answer) (h : ∀ a ∈ as, a.Typed) : ∃ bytes, queryMapEntries (some as) = some bytes ∧ getProofs bytes = some (as.map fun a => some a.clean) := by
  obtain ⟨js, hjs⟩ := answers_write as h
  have hl : encElems (encJ (.ptr answerShape)) (as.map fun a => .ptr (answerV a)) = some js := by
    have := enc_ptrs answerShape (as.map answerV)
    rw [List.map_map] at this
    rw [← hjs, ← this]
    rfl
  have he : encJ proofsShape (.struct [.slice (as.map fun a => .ptr (answerV a))]) = some (.obj [(asc "Proofs", .arr js)]) := by
    unfold proofsShape
    rw [encJ]
    simp only [encFields, Bool.false_and, Bool.false_eq_true, if_false]
    rw [encJ, hl]
    rfl
  obtain ⟨h1, h2⟩ := dec_enc proofsShape proofs_wf _ _ (by
    unfold proofsShape
    rw [Exact]
    simp only [Exacts, and_true]
    rw [Exact]
    intro v hv
    obtain ⟨a, ha, rfl⟩ := List.mem_map.1 hv
    rw [Exact]
    exact answer_exact a (h a ha)) he
  refine ⟨render (.obj [(asc "Proofs", .arr js)]), ?_, ?_⟩
  · unfold queryMapEntries
    dsimp only
    rw [he]
    rfl
  · unfold getProofs
    rw [parse_render _ h1]
    dsimp only
    unfold inflate
    rw [h2]
    unfold proofsShape
    rw [norm]
    simp only [norms, Bool.false_and, Bool.false_eq_true, if_false]
    rw [norm]
    dsimp only [fieldsOf, List.headD_cons, elemsOf]
    rw [List.map_map, List.map_map]
    congr 1
    apply List.map_congr_left
    intro a _
    simp only [Function.comp, norm, ptrOf, norm_answer, answer_back]

/-- C103: an answer that was cut off, anywhere, is an error for the client (a body of `apiGetProof` is complete without its line feed). -/
theorem C103_cut (as : List Answer) (h : ∀ a ∈ as, a.Typed) :
    (∀ body, apiGetProof (some as) = .ok body → ∀ p u : Bytes, p ++ u = body → 2 ≤ u.length → readHttp p = none) ∧
    (∀ bytes, queryMapEntries (some as) = some bytes → ∀ p u : Bytes, p ++ u = bytes → u ≠ [] → getProofs p = none) := by
  obtain ⟨js, hjs⟩ := answers_write as h
  have hint : Ints (.arr js) := (dec_enc (.slice answerShape) (by decide +kernel) (.slice (as.map answerV)) _ (by
    rw [Exact]
    intro v hv
    obtain ⟨a, ha, rfl⟩ := List.mem_map.1 hv
    exact answer_exact a (h a ha)) (by rw [encJ, hjs]; rfl)).1
  have hl : encElems (encJ (.ptr answerShape)) (as.map fun a => .ptr (answerV a)) = some js := by
    have := enc_ptrs answerShape (as.map answerV)
    rw [List.map_map] at this
    rw [← hjs, ← this]
    rfl
  constructor
  · intro body hb p u he hu
    unfold apiGetProof httpBody at hb
    dsimp only at hb
    rw [encJ, hl] at hb
    cases hb
    obtain ⟨u', c, rfl⟩ : ∃ u' c, u = u' ++ [c] := ⟨u.dropLast, u.getLast (by intro e; rw [e] at hu; simp at hu), (List.dropLast_append_getLast _).symm⟩
    rw [← List.append_assoc] at he
    have he2 := (List.append_inj' he rfl).1
    unfold readHttp parseFirst
    rw [(cut_render hint rfl he2 (by intro e; rw [e] at hu; simp at hu)).1]
    rfl
  · intro bytes hb p u he hu
    unfold queryMapEntries proofsShape at hb
    dsimp only at hb
    rw [encJ] at hb
    simp only [encFields, Bool.false_and, Bool.false_eq_true, if_false] at hb
    rw [encJ, hl] at hb
    cases hb
    unfold getProofs
    rw [(cut_render (j := .obj [(asc "Proofs", .arr js)]) (by rw [Ints, IntsMembers, IntsMembers]; exact ⟨hint, True.intro⟩) rfl he hu).2]

/-- C103: a name that does not parse is status 400, and an error over gRPC. -/
theorem C103_error : apiGetProof none = .badRequest ∧ queryMapEntries none = none := ⟨rfl, rfl⟩

/-! ### What `GetProof` returns -/

theorem correct_ascii {l : Bytes} (h : Domain.correctLabel l = true) : ∀ c ∈ l, c < 0x80 := by
  unfold Domain.correctLabel at h
  rw [Bool.or_eq_true] at h
  rcases h with h | h
  · rw [beq_iff_eq] at h
    subst h
    decide
  · simp only [Bool.and_eq_true] at h
    have := List.all_eq_true.1 h.2
    intro c hc
    have hx := this c hc
    revert hx
    exact forall_byte (P := fun c => (Domain.alnum c || c == 45) = true → c < 0x80) (by decide +kernel) c

theorem joinDots_ascii : ∀ {ls : List Bytes}, (∀ l ∈ ls, ∀ c ∈ l, c < 0x80) → ∀ c ∈ Domain.joinDots ls, c < 0x80
  | [], _, c, hc => by simp [Domain.joinDots] at hc
  | [l], h, c, hc => h l (by simp) c (by simpa [Domain.joinDots] using hc)
  | l :: m :: ls, h, c, hc => by
    rw [Domain.joinDots_cons (by simp)] at hc
    rcases List.mem_append.1 hc with hc | hc
    · exact h l (by simp) c hc
    · rcases List.mem_cons.1 hc with rfl | hc
      · decide
      · exact joinDots_ascii (fun x hx => h x (by simp at hx ⊢; tauto)) c hc

/-- The names that are answered are ASCII. -/
theorem parts_ascii {psl : Psl} (hp : IsPsl psl) {d : Bytes} {out : List Bytes} (h : Domain.parseDomainName psl d = some out) : ∀ n ∈ out, ∀ c ∈ n, c < 0x80 := by
  have hv : Domain.isValidDomain psl d = true := by
    unfold Domain.parseDomainName at h
    split at h
    · cases h
    · rename_i hv
      simpa using hv
  obtain ⟨pre, e, h1, _, h2, _⟩ := Domain.C52_parse hp h
  have hl := Domain.valid_labels hv
  intro n hn
  rw [h2] at hn
  obtain ⟨k, _, rfl⟩ := List.mem_map.1 hn
  apply joinDots_ascii
  intro l hl'
  refine correct_ascii (hl l ?_).2
  rw [h1]
  rcases List.mem_append.1 hl' with h | h
  · exact List.mem_append_left _ (List.mem_of_mem_drop h)
  · exact List.mem_append_right _ h

theorem forall₂_left {α β : Type} {R : α → β → Prop} {P : α → Prop} {Q : β → Prop} {as : List α} {bs : List β} (h : List.Forall₂ R as bs) (hQ : ∀ b ∈ bs, Q b) (hP : ∀ a b, R a b → Q b → P a) :
    ∀ a ∈ as, P a := by
  induction h with
  | nil => intro a ha; cases ha
  | cons hr _ ih =>
    intro a ha
    rcases List.mem_cons.1 ha with rfl | ha
    · exact hP _ _ hr (hQ _ (by simp))
    · exact ih (fun b hb => hQ b (by simp [hb])) a ha

theorem answer_name {H : Bytes → Bytes} {t : Node} {table : Bytes → Row} {part : Bytes} {a : Response} (h : AnswerFor H t table part a) : a.domainName = part := by
  unfold AnswerFor at h
  simp only at h
  split at h
  · obtain ⟨v, _, rfl⟩ := h
    rfl
  · subst h
    rfl

theorem served_clean {H : Bytes → Bytes} {psl : Psl} (hp : IsPsl psl) {t : Node} {table : Bytes → Row} {sth : Option Bytes} {name : Bytes} {as : List Answer}
    (h : Serves H psl t table sth name (some as)) : (∀ a ∈ as, a.Typed) ∧ as.map Answer.clean = as := by
  obtain ⟨rs, h1, h2, h3⟩ := h
  refine ⟨fun a ha => (h3 a ha).1, ?_⟩
  unfold GetProof at h1
  cases hpn : Domain.parseDomainName psl name with
  | none => rw [hpn] at h1; cases h1
  | some parts =>
    rw [hpn] at h1
    obtain ⟨rs', h4, h5⟩ := h1
    cases h5
    have hasc := parts_ascii hp hpn
    have hn : ∀ r ∈ rs, ∀ c ∈ r.domainName, c < 0x80 :=
      forall₂_left (P := fun r => ∀ c ∈ r.domainName, c < 0x80) (Q := fun n => ∀ c ∈ n, c < 0x80) (List.Forall₂.flip h4 : List.Forall₂ (fun r n => AnswerFor H t table n r) rs parts) hasc
        (fun r n hr hq => by rw [answer_name hr]; exact hq)
    have : ∀ a ∈ as, a.clean = a := forall₂_left (P := fun a => a.clean = a) h2 hn (by
      intro a r hs hq
      obtain ⟨e, he, hen, _⟩ := hs.entry
      obtain ⟨e', t', p', r', k', v', s'⟩ := a
      simp only at he
      subst he
      unfold Answer.clean
      simp only [Option.map_some]
      rw [show fixUtf8 e.name = e.name from Config.fix_ascii _ (by rw [hen]; exact hq)])
    rw [List.map_congr_left this, List.map_id']

/-- C103: for every name, the client of either interface gets exactly what `GetProof` returned (or an error if it returned one). -/
theorem C103_served (H : Bytes → Bytes) (psl : Psl) (hp : IsPsl psl) (t : Node) (table : Bytes → Row) (sth : Option Bytes) (name : Bytes) (as : List Answer)
    (h : Serves H psl t table sth name (some as)) :
    (∃ body, apiGetProof (some as) = .ok body ∧ readHttp body = some as) ∧ (∃ bytes, queryMapEntries (some as) = some bytes ∧ getProofs bytes = some (as.map some)) := by
  obtain ⟨h1, h2⟩ := served_clean hp h
  obtain ⟨b1, h3, h4⟩ := C103_http as h1
  obtain ⟨b2, h5, h6⟩ := C103_grpc as h1
  refine ⟨⟨b1, h3, by rw [h4, h2]⟩, b2, h5, ?_⟩
  rw [h6]
  conv => rhs; rw [← h2, List.map_map]
  rfl

/-! ## C104 -/

theorem bit?_eq (bits : Bytes) (i : Nat) : bit? bits i = if i < 8 * bits.length then some (bitIsSet bits i) else none := by
  unfold bit?
  by_cases h : i < 8 * bits.length
  · rw [if_pos h, if_pos (by omega)]
  · rw [if_neg h, if_neg (by omega)]

theorem pathHash?_eq (H : Bytes → Bytes) (key : Bytes) : ∀ (l : List Bytes) (i : Nat) (h : Bytes), i ≤ 8 * key.length →
    pathHash? H key i l h = if i + l.length ≤ 8 * key.length then some (verifyPath H key i l h) else none
  | [], i, h, hi => by
    rw [pathHash?, verifyPath, if_pos (by simpa using hi)]
  | s :: l, i, h, hi => by
    rw [pathHash?, bit?_eq, verifyPath, List.length_cons]
    by_cases h1 : i < 8 * key.length
    · rw [if_pos h1]
      dsimp only
      rw [pathHash?_eq H key l (i + 1) h (by omega)]
      by_cases h2 : i + 1 + l.length ≤ 8 * key.length
      · rw [if_pos h2, if_pos (by omega)]
      · rw [if_neg h2, if_neg (by omega)]
    · rw [if_neg h1, if_neg (by omega)]

theorem included?_eq (H : Bytes → Bytes) (root : Bytes) (ap : List Bytes) (key value : Bytes) :
    included? H root ap key value = if ap.length ≤ 8 * key.length then some (verifyInclusion H 256 root ap key value) else none := by
  unfold included? verifyInclusion
  rw [pathHash?_eq H key _ 0 _ (Nat.zero_le _), Nat.zero_add, List.length_reverse]
  split <;> rfl

/-- The two keys have the same bits from `b` on, `k` of them. -/
def Agree (x y : Bytes) (b k : Nat) : Prop := ∀ i, b ≤ i → i < b + k → bitIsSet x i = bitIsSet y i

theorem sameBits?_eq (key pk : Bytes) : ∀ (k b : Nat), b + k ≤ 8 * pk.length → b ≤ 8 * key.length →
    (b + k ≤ 8 * key.length ∧ (Agree key pk b k ∧ sameBits? key pk k b = some true ∨ ¬ Agree key pk b k ∧ sameBits? key pk k b = some false)) ∨
    (8 * key.length < b + k ∧ (Agree key pk b (8 * key.length - b) ∧ sameBits? key pk k b = none ∨ ¬ Agree key pk b (8 * key.length - b) ∧ sameBits? key pk k b = some false))
  | 0, b, h1, h2 => Or.inl ⟨by omega, Or.inl ⟨fun i hi hj => by omega, by rw [sameBits?]⟩⟩
  | k + 1, b, h1, h2 => by
    rw [sameBits?, bit?_eq, bit?_eq, if_pos (show b < 8 * pk.length by omega)]
    by_cases h3 : b < 8 * key.length
    · rw [if_pos h3]
      dsimp only
      by_cases h4 : bitIsSet key b = bitIsSet pk b
      · rw [if_pos h4]
        have hstep : ∀ m, Agree key pk b (m + 1) ↔ Agree key pk (b + 1) m := by
          intro m
          constructor
          · intro h i hi hj
            exact h i (by omega) (by omega)
          · intro h i hi hj
            rcases Nat.eq_or_lt_of_le hi with rfl | hlt
            · exact h4
            · exact h i (by omega) (by omega)
        rw [hstep, show 8 * key.length - b = (8 * key.length - (b + 1)) + 1 by omega, hstep]
        rcases sameBits?_eq key pk k (b + 1) (by omega) (by omega) with ⟨h5, h6⟩ | ⟨h5, h6⟩
        · exact Or.inl ⟨by omega, h6⟩
        · exact Or.inr ⟨by omega, h6⟩
      · rw [if_neg h4]
        have hno : ∀ m, 0 < m → ¬ Agree key pk b m := fun m hm h => h4 (h b (by omega) (by omega))
        by_cases h5 : b + (k + 1) ≤ 8 * key.length
        · exact Or.inl ⟨h5, Or.inr ⟨hno _ (by omega), rfl⟩⟩
        · exact Or.inr ⟨by omega, Or.inr ⟨hno _ (by omega), rfl⟩⟩
    · rw [if_neg h3]
      exact Or.inr ⟨by omega, Or.inl ⟨fun i hi hj => by omega, rfl⟩⟩

theorem sameBits_iff (x y : Bytes) (m : Nat) : sameBits x y m = true ↔ Agree x y 0 m := by
  unfold sameBits Agree
  simp only [List.all_eq_true, List.mem_range, beq_iff_eq, Nat.zero_le, Nat.zero_add, forall_const]

/-- The inputs on which the check indexes out of range: a path longer than the key it is followed with. -/
def TooLong (H : Bytes → Bytes) (a : Answer) (e : Entry) : Prop :=
  if a.proofType = (PoP : Int) then e.value = a.proofValue.getD [] ∧ 256 < a.path.length
  else ∃ root, a.root = some root ∧
    (a.proofKey.getD [] = [] ∧ 256 < a.path.length ∨
      a.proofKey.getD [] ≠ [] ∧ (8 * (a.proofKey.getD []).length < a.path.length ∨
        verifyInclusion H 256 root a.path (a.proofKey.getD []) (a.proofValue.getD []) = true ∧ 256 < a.path.length ∧ Agree e.id (a.proofKey.getD []) 0 256))

/-- `VerifyProofByDomain` of an answer with an entry panics on these inputs and only on them, and otherwise has the outcome of `verifyProofByDomain`. -/
theorem verify_eq (H : Bytes → Bytes) (a : Answer) (e : Entry) (he : a.entry = some e) (hid : e.id.length = 32) (r : Response) (hs : Shows a r) :
    (TooLong H a e ∧ verify H (some a) = .panic) ∨
    (¬ TooLong H a e ∧ verify H (some a) = match verifyProofByDomain H r with
      | none => .err
      | some (t, b) => .ok t b) := by
  obtain ⟨e', he', _, h1, h2, _, _⟩ := hs.entry
  rw [he] at he'
  cases he'
  unfold verify
  dsimp only
  rw [he]
  dsimp only
  unfold TooLong verifyProofByDomain
  rw [← h1, ← h2, ← hs.path, ← hs.root, ← hs.key, ← hs.value]
  have ht : a.proofType = (PoP : Int) ↔ r.proofType = PoP := by
    rw [hs.type]
    omega
  by_cases hp : r.proofType = PoP
  · rw [if_pos (ht.2 hp), if_pos (ht.2 hp), if_pos hp]
    by_cases hv : e.value = a.proofValue.getD []
    · rw [if_neg (not_not.2 hv), if_neg (not_not.2 hv), included?_eq, hid]
      by_cases hl : a.path.length ≤ 8 * 32
      · rw [if_pos hl]
        exact Or.inr ⟨fun h => by omega, rfl⟩
      · rw [if_neg hl]
        exact Or.inl ⟨⟨hv, by omega⟩, rfl⟩
    · rw [if_pos hv, if_pos hv]
      exact Or.inr ⟨fun h => hv h.1, rfl⟩
  · rw [if_neg (fun h => hp (ht.1 h)), if_neg (fun h => hp (ht.1 h)), if_neg hp]
    unfold notIncluded? verifyNonInclusion
    cases hr : a.root with
    | none =>
      refine Or.inr ⟨?_, rfl⟩
      rintro ⟨root, h, _⟩
      cases h
    | some root =>
      dsimp only
      by_cases hk : a.proofKey.getD [] = []
      · rw [if_pos (by rw [hk]; rfl), if_pos (by rw [hk]; rfl), pathHash?_eq H _ _ 0 _ (Nat.zero_le _), Nat.zero_add, List.length_reverse, hid]
        by_cases hl : a.path.length ≤ 8 * 32
        · rw [if_pos hl]
          refine Or.inr ⟨?_, rfl⟩
          rintro ⟨_, _, h | h⟩
          · omega
          · exact h.1 hk
        · rw [if_neg hl]
          exact Or.inl ⟨⟨root, rfl, Or.inl ⟨hk, by omega⟩⟩, rfl⟩
      · have hk' : ¬ (a.proofKey.getD []).isEmpty = true := by simpa using hk
        rw [if_neg hk', if_neg hk', included?_eq]
        by_cases hl : a.path.length ≤ 8 * (a.proofKey.getD []).length
        · rw [if_pos hl]
          cases hi : verifyInclusion H 256 root a.path (a.proofKey.getD []) (a.proofValue.getD []) with
          | false =>
            refine Or.inr ⟨?_, rfl⟩
            rintro ⟨_, hr', h | h⟩
            · exact hk h.1
            · cases hr'
              rcases h.2 with h | h
              · omega
              · rw [hi] at h
                cases h.1
          | true =>
            dsimp only
            rcases sameBits?_eq e.id (a.proofKey.getD []) a.path.length 0 (by omega) (Nat.zero_le _) with ⟨h5, h6⟩ | ⟨h5, h6⟩
            · refine Or.inr ⟨?_, ?_⟩
              · rintro ⟨_, _, h | h⟩
                · exact hk h.1
                · rcases h.2 with h | h
                  · omega
                  · omega
              · rcases h6 with ⟨h6, h7⟩ | ⟨h6, h7⟩
                · rw [h7]
                  simp only [Bool.not_true, Bool.false_eq_true, if_false]
                  rw [(sameBits_iff _ _ _).2 h6]
                · rw [h7]
                  simp only [Bool.not_true, Bool.false_eq_true, if_false]
                  rw [Bool.eq_false_iff.2 (fun h => h6 ((sameBits_iff _ _ _).1 h))]
            · rw [hid] at h5 h6
              rcases h6 with ⟨h6, h7⟩ | ⟨h6, h7⟩
              · rw [h7]
                exact Or.inl ⟨⟨root, rfl, Or.inr ⟨hk, Or.inr ⟨hi, by omega, h6⟩⟩⟩, rfl⟩
              · rw [h7]
                refine Or.inr ⟨?_, ?_⟩
                · rintro ⟨_, _, h | h⟩
                  · exact hk h.1
                  · rcases h.2 with h | h
                    · omega
                    · exact h6 h.2.2
                · simp only [Bool.not_true, Bool.false_eq_true, if_false]
                  rw [Bool.eq_false_iff.2 (fun h => h6 (fun i hi hj => (sameBits_iff _ _ _).1 h i hi (by omega)))]
        · rw [if_neg hl]
          exact Or.inl ⟨⟨root, rfl, Or.inr ⟨hk, Or.inl (by omega)⟩⟩, rfl⟩

theorem verify_nil (H : Bytes → Bytes) (a : Answer) (h : a.entry = none) : verify H (some a) = .panic := by
  unfold verify
  dsimp only
  rw [h]

/-- Every answer with an entry shows one of `Responder`, if its type is not negative. -/
theorem shows_any (a : Answer) (e : Entry) (he : a.entry = some e) (n : Nat) (hn : a.proofType = n) :
    Shows a ⟨e.name, e.id, e.value, e.certIDs.getD [], e.policyIDs.getD [], n, a.path, a.root, a.proofKey.getD [], a.proofValue.getD []⟩ :=
  ⟨⟨e, he, rfl, rfl, rfl, rfl, rfl⟩, hn, rfl, rfl, rfl, rfl⟩

/-- The type only matters as far as it is "present". -/
theorem verify_type (H : Bytes → Bytes) (a : Answer) (h : a.proofType ≠ (PoP : Int)) : verify H (some a) = verify H (some { a with proofType := (PoA : Int) }) := by
  have h0 : ¬ ((PoA : Int) = (PoP : Int)) := by decide
  unfold verify
  dsimp only
  simp only [if_neg h, if_neg h0]
  rfl

/-- C104 is violated; the exact condition: `VerifyProofByDomain` panics if and only if the response or its entry is nil, or the path is too long for the key (see `TooLong`). -/
theorem C104_panic_iff_partial (H : Bytes → Bytes) (x : Option Answer) (hx : ∀ a, x = some a → a.Typed) :
    verify H x = .panic ↔ x = none ∨ ∃ a, x = some a ∧ (a.entry = none ∨ ∃ e, a.entry = some e ∧ TooLong H a e) := by
  cases x with
  | none => simp [verify]
  | some a =>
    simp only [reduceCtorEq, Option.some.injEq, exists_eq_left', false_or]
    cases he : a.entry with
    | none => simp [verify_nil H a he]
    | some e =>
      simp only [reduceCtorEq, Option.some.injEq, exists_eq_left', false_or]
      have hid := ((hx a rfl).arrays e he).1
      have key : ∀ (a : Answer) (n : Nat), a.entry = some e → a.proofType = n → (verify H (some a) = .panic ↔ TooLong H a e) := by
        intro a n he hn
        rcases verify_eq H a e he hid _ (shows_any a e he n hn) with ⟨h1, h2⟩ | ⟨h1, h2⟩
        · exact ⟨fun _ => h1, fun _ => h2⟩
        · refine ⟨fun h => ?_, fun h => absurd h h1⟩
          rw [h2] at h
          split at h <;> cases h
      by_cases ht : a.proofType = (PoP : Int)
      · exact key a PoP he ht
      · rw [verify_type H a ht, key { a with proofType := (PoA : Int) } PoA he rfl]
        have h0 : ¬ ((PoA : Int) = (PoP : Int)) := by decide
        unfold TooLong
        dsimp only
        rw [if_neg ht, if_neg h0]
        rfl

/-- C104 (partial: see `C104_panic_iff_partial`): with an entry, a path of at most 256 nodes and a proof key that is absent or has 32 bytes, the check does not panic. -/
theorem C104_no_panic_partial (H : Bytes → Bytes) (a : Answer) (ht : a.Typed) (he : a.entry ≠ none) (hp : a.path.length ≤ 256) (hk : a.proofKey.getD [] = [] ∨ (a.proofKey.getD []).length = 32) :
    verify H (some a) ≠ .panic := by
  intro h
  rcases (C104_panic_iff_partial H (some a) (by intro b hb; cases hb; exact ht)).1 h with h | ⟨a', ha, h | ⟨e, _, h⟩⟩
  · cases h
  · cases ha
    exact he h
  · cases ha
    unfold TooLong at h
    split at h
    · omega
    · obtain ⟨_, _, h | ⟨h1, h | h⟩⟩ := h
      · omega
      · rcases hk with hk | hk
        · exact h1 hk
        · omega
      · omega

/-- C104: without a panic, the outcome is the one of `verifyProofByDomain` (C12, C13). -/
theorem C104_agrees (H : Bytes → Bytes) (a : Answer) (ht : a.Typed) (r : Response) (hs : Shows a r) (hn : verify H (some a) ≠ .panic) :
    verify H (some a) = match verifyProofByDomain H r with
      | none => .err
      | some (t, b) => .ok t b := by
  obtain ⟨e, he, _⟩ := hs.entry
  rcases verify_eq H a e he (ht.arrays e he).1 r hs with ⟨_, h⟩ | ⟨_, h⟩
  · exact absurd h hn
  · exact h

/-! ### What can be received -/

theorem fitss_one {T : Policy.Time → Prop} {n b s fs vs} (h : Fitss T ((n, b, s) :: fs) vs) : ∃ v vs', vs = v :: vs' ∧ Fits T s v ∧ Fitss T fs vs' := by
  cases vs with
  | nil => simp only [Fitss] at h
  | cons v vs' =>
    simp only [Fitss] at h
    exact ⟨v, vs', rfl, h.1, h.2⟩

theorem fitss_nil {T : Policy.Time → Prop} {vs} (h : Fitss T [] vs) : vs = [] := by
  cases vs with
  | nil => rfl
  | cons v vs' => simp only [Fitss] at h

theorem fits_int {T : Policy.Time → Prop} {v} (h : Fits T .int v) : ∃ i, v = .int i ∧ -(2 ^ 63) ≤ i ∧ i < 2 ^ 63 := by
  cases v <;> simp only [Fits] at h
  exact ⟨_, rfl, h⟩

theorem fits_bytes {T : Policy.Time → Prop} {v} (h : Fits T .bytes v) : ∃ b, v = .bytes b := by
  cases v <;> simp only [Fits] at h
  exact ⟨_, rfl⟩

theorem fits_str {T : Policy.Time → Prop} {v} (h : Fits T .str v) : ∃ b, v = .str b := by
  cases v <;> simp only [Fits] at h
  exact ⟨_, rfl⟩

theorem fits_array {T : Policy.Time → Prop} {n v} (h : Fits T (.array n) v) : ∃ b, v = .array b ∧ b.length = n := by
  cases v <;> simp only [Fits] at h
  exact ⟨_, rfl, h⟩

theorem typed_of_fits {T : Policy.Time → Prop} {v : V} (h : Fits T answerShape v) : (answerOf v).Typed := by
  obtain ⟨h0, h1⟩ := fits_fieldsOf T _ v h
  obtain ⟨ev, l1, e1, he, h1⟩ := fitss_one h1
  obtain ⟨pv, l2, e2, hp, h1⟩ := fitss_one h1
  obtain ⟨sv, l3, e3, hs, h1⟩ := fitss_one h1
  have e4 := fitss_nil h1
  subst e4 e3 e2
  rw [e1] at h0
  subst h0
  obtain ⟨h0, h1⟩ := fits_fieldsOf T _ pv hp
  obtain ⟨tv, l1, e1, ht, h1⟩ := fitss_one h1
  obtain ⟨av, l2, e2, _, h1⟩ := fitss_one h1
  obtain ⟨rv, l3, e3, hr, h1⟩ := fitss_one h1
  obtain ⟨kv, l4, e4, hk, h1⟩ := fitss_one h1
  obtain ⟨vv, l5, e5, hv, h1⟩ := fitss_one h1
  have e6 := fitss_nil h1
  subst e6 e5 e4 e3 e2
  rw [e1] at h0
  subst h0
  obtain ⟨i, rfl, hi⟩ := fits_int ht
  obtain ⟨_, rfl⟩ := fits_bytes hr
  obtain ⟨_, rfl⟩ := fits_bytes hk
  obtain ⟨_, rfl⟩ := fits_bytes hv
  obtain ⟨_, rfl⟩ := fits_bytes hs
  refine ⟨hi, ?_⟩
  intro e hee
  dsimp only [answerOf] at hee
  cases ev with
  | ptr w =>
    rw [Fits] at he
    obtain ⟨h0, h1⟩ := fits_fieldsOf T _ w he
    obtain ⟨v1, l1, e1, f1, h1⟩ := fitss_one h1
    obtain ⟨v2, l2, e2, f2, h1⟩ := fitss_one h1
    obtain ⟨v3, l3, e3, f3, h1⟩ := fitss_one h1
    obtain ⟨v4, l4, e4, f4, h1⟩ := fitss_one h1
    obtain ⟨v5, l5, e5, f5, h1⟩ := fitss_one h1
    obtain ⟨v6, l6, e6, f6, h1⟩ := fitss_one h1
    obtain ⟨v7, l7, e7, f7, h1⟩ := fitss_one h1
    have e8 := fitss_nil h1
    subst e8 e7 e6 e5 e4 e3 e2
    rw [e1] at h0
    subst h0
    obtain ⟨_, rfl⟩ := fits_str f1
    obtain ⟨_, rfl, g2⟩ := fits_array f2
    obtain ⟨_, rfl, g3⟩ := fits_array f3
    obtain ⟨_, rfl, g4⟩ := fits_array f4
    obtain ⟨_, rfl⟩ := fits_bytes f5
    obtain ⟨_, rfl, g6⟩ := fits_array f6
    obtain ⟨_, rfl⟩ := fits_bytes f7
    simp only [entryOf, Option.some.injEq] at hee
    subst hee
    exact ⟨g2, g3, g4, g6⟩
  | _ => simp only [entryOf] at hee; cases hee

/-- C104: whatever a server sends, the client either reports an error or has answers whose arrays have 32 bytes: the conditions of `C104_panic_iff_partial` are the only ones to check. -/
theorem C104_received (s : Bytes) :
    (∀ as, readHttp s = some as → ∀ a ∈ as, a.Typed) ∧ (∀ as, getProofs s = some as → ∀ x ∈ as, ∀ a, x = some a → a.Typed) := by
  constructor
  · intro as h a ha
    unfold readHttp at h
    split at h
    · cases h
    · rename_i j _
      split at h
      · cases h
      · rename_i v hv
        cases h
        obtain ⟨w, hw, rfl⟩ := List.mem_map.1 ha
        have hf := dec_fits (fun _ => True) True.intro (fun _ _ _ => True.intro) _ _ _ _ (zero_fits _ True.intro _) hv
        exact typed_of_fits (fits_elemsOf _ _ _ hf w hw)
  · intro as h x hx a hxa
    subst hxa
    unfold getProofs at h
    split at h
    · cases h
    · rename_i j _
      split at h
      · cases h
      · rename_i v hv
        cases h
        obtain ⟨w, hw, hwa⟩ := List.mem_map.1 hx
        have hf := dec_fits (fun _ => True) True.intro (fun _ _ _ => True.intro) _ _ _ _ (zero_fits _ True.intro _) hv
        obtain ⟨h0, h1⟩ := fits_fieldsOf _ _ v hf
        obtain ⟨lv, l1, e1, hl, h1⟩ := fitss_one h1
        rw [e1] at hw
        have := fits_elemsOf _ _ _ hl w hw
        cases w with
        | ptr u =>
          rw [Fits] at this
          cases hwa
          exact typed_of_fits this
        | _ => cases hwa

/-- C104 is violated: short bodies that any server can send are read without an error, and the check panics on what was read: an answer without an entry, a nil answer over gRPC. -/
theorem C104_nil_violated (H : Bytes → Bytes) :
    (∃ as, readHttp (asc "[{}]") = some as ∧ as.map (fun a => verify H (some a)) = [.panic]) ∧
    (∃ as, getProofs (asc "{\"Proofs\":[null,{}]}") = some as ∧ as.map (verify H) = [.panic, .panic]) := by
  refine ⟨⟨[⟨none, 0, none, none, none, none, none⟩], by decide +kernel, rfl⟩, ⟨[none, some ⟨none, 0, none, none, none, none, none⟩], by decide +kernel, rfl⟩⟩

/-- A body with a complete answer, but a path of `n` nodes. -/
def longBody (n : Nat) : Bytes :=
  asc "[{\"DomainEntry\":{},\"PoI\":{\"ProofType\":1,\"ProofValue\":\"AAAAAAAAAAAAAAAAAAAAAAAAAAAAAAAAAAAAAAAAAAA=\",\"Proof\":[" ++ (List.replicate n (asc "\"\",")).flatten ++ asc "\"\"]}}]"

/-- C104 is violated: a path with 257 nodes. -/
theorem C104_long_violated (H : Bytes → Bytes) : ∃ a, readHttp (longBody 256) = some [a] ∧ a.entry ≠ none ∧ verify H (some a) = .panic := by
  refine ⟨⟨some ⟨[], List.replicate 32 0, List.replicate 32 0, List.replicate 32 0, none, List.replicate 32 0, none⟩, 1, some (List.replicate 257 (some [])), none, none, some (List.replicate 32 0), none⟩,
    by decide +kernel, by simp, ?_⟩
  rw [C104_panic_iff_partial H _ (by intro a ha; cases ha; exact ⟨by decide, by intro e he; cases he; decide⟩)]
  refine Or.inr ⟨_, rfl, Or.inr ⟨_, rfl, ?_⟩⟩
  unfold TooLong
  rw [if_pos (by decide)]
  exact ⟨by decide +kernel, by decide +kernel⟩

/-! ### End to end -/

/-- The proofs of the server are not too long, and their keys have 32 bytes. -/
theorem proof_sizes (H : Bytes → Bytes) (k : Bytes) : ∀ (t : Node) (i : Nat) (q : Nat → Bool), i ≤ 256 → WF 256 i q t →
    (merkleProof H 256 (256 - i) t k).path.length ≤ 256 - i ∧ ∀ k', (merkleProof H 256 (256 - i) t k).key = some k' → k'.length = 32
  | .empty, i, q, _, _ => by simp [merkleProof]
  | .leaf k0 v, i, q, _, h => by
    unfold WF Smt.InPre at h
    unfold merkleProof
    split
    · simp
    · simp only [List.length_nil, Nat.zero_le, Option.some.injEq, true_and]
      intro k' hk
      subst hk
      omega
  | .node l r, i, q, _, h => by
    unfold WF at h
    obtain ⟨hi, hl, hr, _⟩ := h
    rw [merkleProof.eq_def]
    dsimp only
    have e : 256 - i - 1 = 256 - (i + 1) := by omega
    rw [e]
    split
    · obtain ⟨h1, h2⟩ := proof_sizes H k r (i + 1) _ (by omega) hr
      exact ⟨by rw [List.length_append, List.length_singleton]; omega, h2⟩
    · obtain ⟨h1, h2⟩ := proof_sizes H k l (i + 1) _ (by omega) hl
      exact ⟨by rw [List.length_append, List.length_singleton]; omega, h2⟩

theorem answer_sizes (H : Bytes → Bytes) (hist : List KVs) (hgood : GoodHist 256 hist) (table : Bytes → Row) (part : Bytes) (r : Response) (h : AnswerFor H (run 256 hist) table part r) :
    r.proof.length ≤ 256 ∧ (r.proofKey = [] ∨ r.proofKey.length = 32) := by
  obtain ⟨h1, h2⟩ := proof_sizes H (H part) (run 256 hist) 0 _ (by omega) hgood.spec.1
  have hk : (merkleProof H 256 256 (run 256 hist) (H part)).key.getD [] = [] ∨ ((merkleProof H 256 256 (run 256 hist) (H part)).key.getD []).length = 32 := by
    cases hc : (merkleProof H 256 256 (run 256 hist) (H part)).key with
    | none => exact Or.inl rfl
    | some k => exact Or.inr (h2 k hc)
  unfold AnswerFor at h
  simp only at h
  split at h
  · obtain ⟨v, _, rfl⟩ := h
    exact ⟨h1, hk⟩
  · subst h
    exact ⟨h1, hk⟩

/-- C103 (partial: the tree is in sync with the table, and histories as in C13): for a valid name, over HTTP and over gRPC, the client reads the answers of the server, one per name, and
`VerifyProofByDomain` accepts each of them. -/
theorem C103_accepted_partial (H : Bytes → Bytes) (hH : ∀ x, (H x).length = 32) (psl : Psl) (hp : IsPsl psl) (hist : List KVs) (hgood : GoodHist 256 hist)
    (table : Bytes → Row) (hsync : InSync H (run 256 hist) table) (sth : Option Bytes) (name : Bytes) (as : List Answer) (h : Serves H psl (run 256 hist) table sth name (some as)) :
    (∃ body, apiGetProof (some as) = .ok body ∧ readHttp body = some as) ∧ (∃ bytes, queryMapEntries (some as) = some bytes ∧ getProofs bytes = some (as.map some)) ∧
    some (as.map fun a => (a.entry.map Entry.name).getD []) = Domain.parseDomainName psl name ∧
    ∀ a ∈ as, a.sig = sth ∧ ∃ t : Nat, a.proofType = t ∧ verify H (some a) = .ok t true := by
  obtain ⟨h1, h2⟩ := C103_served H psl hp _ table sth name as h
  refine ⟨h1, h2, ?_⟩
  obtain ⟨rs, h3, h4, h5⟩ := h
  obtain ⟨h6, h7⟩ := Responder.C13_answers_partial H hH psl hist hgood table hsync name (some rs) h3
  refine ⟨?_, ?_⟩
  · rw [← h6, Option.map_some]
    congr 1
    clear h3 h5 h6 h7 h1 h2
    induction h4 with
    | nil => rfl
    | cons hs _ ih =>
      obtain ⟨e, he, hn, _⟩ := hs.entry
      rw [List.map_cons, List.map_cons, ih, he, ← hn]
      rfl
  · have hsz : ∀ r ∈ rs, r.proof.length ≤ 256 ∧ (r.proofKey = [] ∨ r.proofKey.length = 32) := by
      unfold GetProof at h3
      split at h3
      · cases h3
      · obtain ⟨rs', h8, h9⟩ := h3
        cases h9
        exact forall₂_left (Q := fun _ => True) (List.Forall₂.flip h8 : List.Forall₂ (fun r n => AnswerFor H (run 256 hist) table n r) rs _) (fun _ _ => True.intro)
          (fun r n hr _ => answer_sizes H hist hgood table n r hr)
    have key : ∀ a ∈ as, a.Typed → ∃ t : Nat, a.proofType = t ∧ verify H (some a) = .ok t true :=
      forall₂_left (Q := fun r : Response => verifyProofByDomain H r = some (r.proofType, true) ∧ r.proof.length ≤ 256 ∧ (r.proofKey = [] ∨ r.proofKey.length = 32)) h4
        (fun r hr => ⟨(h7 rs rfl r hr).2.2.2.2, hsz r hr⟩)
        (by
          intro a r hs ⟨hv, hl, hk⟩ ht
          refine ⟨r.proofType, hs.type, ?_⟩
          obtain ⟨e, he, _⟩ := hs.entry
          rw [C104_agrees H a ht r hs (C104_no_panic_partial H a ht (by rw [he]; simp) (by rw [hs.path]; exact hl) (by rw [hs.key]; exact hk)), hv])
    exact fun a ha => ⟨(h5 a ha).2, key a ha (h5 a ha).1⟩

/-! ## A concrete case -/

/-- The answers to `x.a.com` in the example of C13: there are such answers, and the theorems apply to them. -/
example : ∃ as, Serves Responder.exH Domain.exPsl (run 256 Responder.exTree) Responder.exTable (some [1, 2]) (asc "x.a.com") (some as) ∧ as.length = 2 ∧ ∀ a ∈ as, verify Responder.exH (some a) ≠ .panic := by
  obtain ⟨out, hout⟩ := Responder.getProof_total Responder.exH Domain.exPsl (run 256 Responder.exTree) Responder.exTable (asc "x.a.com")
  have hp : Domain.parseDomainName Domain.exPsl (asc "x.a.com") = some [asc "a.com", asc "x.a.com"] := by decide +kernel
  have hg := hout
  unfold GetProof at hout
  rw [hp] at hout
  obtain ⟨rs, h1, rfl⟩ := hout
  let conv : Response → Answer := fun r =>
    ⟨some ⟨r.domainName, r.domainID, r.domainValue, List.replicate 32 0, some r.certIDs, List.replicate 32 0, none⟩, r.proofType, some (r.proof.map some), r.root, some r.proofKey, some r.proofValue, some [1, 2]⟩
  have hr : ∀ r ∈ rs, r.policyIDs = [] ∧ r.domainID.length = 32 ∧ r.domainValue.length = 32 ∧ r.proofType ≤ 1 := by
    refine forall₂_left (Q := fun n => n = asc "a.com" ∨ n = asc "x.a.com")
      (List.Forall₂.flip h1 : List.Forall₂ (fun r n => AnswerFor Responder.exH (run 256 Responder.exTree) Responder.exTable n r) rs _) (by simp) ?_
    intro r n hr hn
    unfold AnswerFor at hr
    simp only at hr
    have htab : ∀ i, (Responder.exTable i).policyIDs = [] := by
      intro i
      unfold Responder.exTable
      split <;> rfl
    split at hr
    · obtain ⟨v, _, rfl⟩ := hr
      exact ⟨htab _, Responder.exH_length _, Responder.exH_length _, Nat.le_refl 1⟩
    · subst hr
      exact ⟨rfl, Responder.exH_length _, by simp, Nat.zero_le 1⟩
  have hser : Serves Responder.exH Domain.exPsl (run 256 Responder.exTree) Responder.exTable (some [1, 2]) (asc "x.a.com") (some (rs.map conv)) := by
    refine ⟨rs, hg, ?_, ?_⟩
    · clear h1 hg
      induction rs with
      | nil => exact .nil
      | cons r rs ih =>
        refine .cons ⟨⟨_, rfl, rfl, rfl, rfl, rfl, (hr r (by simp)).1.symm⟩, rfl, ?_, rfl, rfl, rfl⟩ (ih fun x hx => hr x (by simp [hx]))
        show (((some (r.proof.map some)).getD []).map (·.getD [])) = r.proof
        simp [Function.comp_def]
    · intro a ha
      obtain ⟨r, hrr, rfl⟩ := List.mem_map.1 ha
      obtain ⟨_, g1, g2, g3⟩ := hr r hrr
      refine ⟨⟨?_, ?_⟩, rfl⟩
      · show -(2 ^ 63) ≤ (r.proofType : Int) ∧ (r.proofType : Int) < 2 ^ 63
        omega
      · intro e he
        cases he
        exact ⟨g1, g2, by simp, by simp⟩
  refine ⟨rs.map conv, hser, ?_, ?_⟩
  · rw [List.length_map]
    exact h1.length_eq.symm
  · obtain ⟨_, _, _, h⟩ := C103_accepted_partial Responder.exH Responder.exH_length Domain.exPsl Domain.exPsl_isPsl Responder.exTree
      (Smt.goodHist_of_edge Responder.exSync.1 Responder.exSync.2.1) Responder.exTable Responder.exSync.2.2.2 (some [1, 2]) _ _ hser
    intro a ha hc
    obtain ⟨_, t, _, h⟩ := h a ha
    rw [h] at hc
    cases hc

/-- The text of an answer. -/
example : (httpBody [⟨none, 1, some [some [0], none], some [7], none, some [], none⟩]).map (· == asc "[{\"DomainEntry\":null,\"PoI\":{\"ProofType\":1,\"Proof\":[\"AA==\",null],\"Root\":\"Bw==\",\"ProofKey\":null,\"ProofValue\":\"\"},\"TreeHeadSig\":null}]\n") = some true := by
  decide +kernel

end Fpki.Wire
