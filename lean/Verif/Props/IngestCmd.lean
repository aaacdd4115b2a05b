import Verif.Model.IngestCmd
import Verif.Props.IngestDb
import Verif.Props.EndToEnd

/-!
# C120: the ingest command and the served answers
-/
namespace Fpki.IngestCmd
open Fpki.Db Fpki.Smt Fpki.Dirty Fpki.Responder Fpki.Ids Fpki.Domain
open Fpki.E2E (Sys SInv XInv Frame Len32 IsDirty HasLink Ascending tableOf)
open Fpki.IngestDb (Item Stmt exec execAll FullRun Named certRowsOf dirtyOf domainOf linkOf)
open Fpki.Batch (DirtyDomain)

/-! ## The statements of several tries -/

theorem certRowsOf_append {l l' : List Stmt} {r : Cert} : certRowsOf (l ++ l') r ↔ certRowsOf l r ∨ certRowsOf l' r := by
  unfold certRowsOf
  constructor
  · rintro ⟨b, h, h'⟩
    rcases List.mem_append.1 h with h | h
    · exact Or.inl ⟨b, h, h'⟩
    · exact Or.inr ⟨b, h, h'⟩
  · rintro (⟨b, h, h'⟩ | ⟨b, h, h'⟩)
    · exact ⟨b, List.mem_append_left _ h, h'⟩
    · exact ⟨b, List.mem_append_right _ h, h'⟩

theorem dirtyOf_append {l l' : List Stmt} {r : DirtyDomain} : dirtyOf (l ++ l') r ↔ dirtyOf l r ∨ dirtyOf l' r := by
  unfold dirtyOf
  constructor
  · rintro ⟨b, h, h'⟩
    rcases List.mem_append.1 h with h | h
    · exact Or.inl ⟨b, h, h'⟩
    · exact Or.inr ⟨b, h, h'⟩
  · rintro (⟨b, h, h'⟩ | ⟨b, h, h'⟩)
    · exact ⟨b, List.mem_append_left _ h, h'⟩
    · exact ⟨b, List.mem_append_right _ h, h'⟩

theorem linkOf_append {l l' : List Stmt} {r : DirtyDomain} : linkOf (l ++ l') r ↔ linkOf l r ∨ linkOf l' r := by
  unfold linkOf
  constructor
  · rintro ⟨b, h, h'⟩
    rcases List.mem_append.1 h with h | h
    · exact Or.inl ⟨b, h, h'⟩
    · exact Or.inr ⟨b, h, h'⟩
  · rintro (⟨b, h, h'⟩ | ⟨b, h, h'⟩)
    · exact ⟨b, List.mem_append_left _ h, h'⟩
    · exact ⟨b, List.mem_append_right _ h, h'⟩

/-- What the statements of tries contain. -/
structure TryFacts (H : Bytes → Bytes) (items : List Item) (st : List Stmt) : Prop where
  certs : ∀ r, certRowsOf st r → ∃ it ∈ items, it.row = r
  dirty : ∀ d, dirtyOf st d → d.domainID = H d.name ∧ ∃ it ∈ items, it.row.id = d.certID ∧ d.name ∈ it.names
  links : ∀ d, linkOf st d → dirtyOf st d

theorem tries_facts {H : Bytes → Bytes} {items : List Item} {st : List Stmt} (h : Tries H items st) : TryFacts H items st := by
  induction h with
  | none => constructor <;> simp [certRowsOf, dirtyOf, linkOf]
  | more size out k _ hr ih =>
    obtain ⟨ds, f⟩ := IngestDb.facts hr
    refine ⟨fun r h => ?_, fun d h => ?_, fun d h => ?_⟩
    · rcases certRowsOf_append.1 h with h | ⟨b, hb, h⟩
      · exact ih.certs r h
      · exact (f.certs r).1 ⟨b, List.mem_of_mem_take hb, h⟩
    · rcases dirtyOf_append.1 h with h | ⟨b, hb, h⟩
      · exact ih.dirty d h
      · exact f.sound d ((f.dirty d).1 ⟨b, List.mem_of_mem_take hb, h⟩)
    · rcases linkOf_append.1 h with h | h
      · exact dirtyOf_append.2 (Or.inl (ih.links d h))
      · exact dirtyOf_append.2 (Or.inr (f.domainsAfter k d (f.linksAfter k d h)))

/-- A complete run after other tries. -/
theorem tries_complete {H : Bytes → Bytes} {items : List Item} {before out : List Stmt} {size : Nat} (h : Tries H items before) (hr : FullRun H size items out) :
    Tries H items (before ++ out) := by
  have := Tries.more size out out.length h hr
  rwa [List.take_length] at this

/-! ## What the batch needs -/

/-- The certificates of the batch have IDs of 32 bytes (SHA-256), and the issuer of each is in the batch or stored (the files contain the chains). -/
def Closed (db : DB) (items : List Item) : Prop :=
  ∀ it ∈ items, it.row.id.length = 32 ∧ (it.row.parent = [] ∨ (∃ it' ∈ items, it'.row.id = it.row.parent) ∨ Stored db it.row.parent)

theorem closure_new {certs certs' : List Cert} {links links' : List (Bytes × Bytes)} {d : Bytes} (hkeep : ∀ c ∈ certs, c ∈ certs')
    (hnew : ∀ c ∈ certs', c ∈ certs ∨ ((∀ y ∈ certs, y.parent ≠ c.id) ∧ (d, c.id) ∉ links)) (hl : ∀ i, (d, i) ∈ links' ↔ (d, i) ∈ links) (c : Cert) :
    InClosure certs' links' d c ↔ InClosure certs links d c := by
  constructor
  · intro h
    induction h with
    | link c hc hlk =>
      rw [hl] at hlk
      rcases hnew c hc with h | ⟨_, h⟩
      · exact .link c h hlk
      · exact absurd hlk h
    | parent c p _ hp he ih =>
      rcases hnew p hp with h | ⟨h, _⟩
      · exact .parent c p ih h he
      · exact absurd he.symm (h c ih.mem)
  · intro h
    induction h with
    | link c hc hlk => exact .link c (hkeep c hc) ((hl _).2 hlk)
    | parent c p _ hp he ih => exact .parent c p ih (hkeep p hp) he

/-- During a batch, and between the tries, the tables stay as they should be. -/
theorem tries_sinv {H : Bytes → Bytes} (hH : ∀ x, (H x).length = 32) {s : Sys} (hi : SInv H s) (hx : XInv s) {items : List Item} (hc : Closed s.db items) {st : List Stmt}
    (h : Tries H items st) : SInv H { s with db := execAll st s.db } := by
  have f := tries_facts h
  have e := IngestDb.effect s.db st
  have hk := IngestDb.execAll_keys st hi.inv.keys
  generalize execAll st s.db = db' at e hk
  have hnew : ∀ c ∈ db'.certs, c ∈ s.db.certs ∨ (c.id.length = 32 ∧ ¬ Stored s.db c.id) := by
    intro c hcm
    rcases e.certsNew c hcm with h | ⟨h, h'⟩
    · exact Or.inl h
    · obtain ⟨it, h1, rfl⟩ := f.certs c h
      exact Or.inr ⟨(hc it h1).1, fun ⟨y, hy, he⟩ => h' y hy he⟩
  refine E2E.frame_sinv hi ⟨hk, by rw [e.policies]; exact hi.inv.pol, by rw [e.policies, e.domainPolicies]; exact hi.inv.plinks, cons_of hi.inv.cons e.payloads fun d hd => ?_⟩
    ⟨fun hl => ⟨fun c hcm => ?_, by rw [e.policies]; exact hl.policies, fun l hlm => ?_, fun r hr => ?_⟩, e.payloads, fun d hd => ?_⟩
  · have hun : ∀ x, dirtyOf st x → x.domainID ≠ d := fun x hxd he => hd ((e.dirty _ _).2 (Or.inl ⟨⟨x, hxd, he⟩, rfl⟩))
    refine ⟨fun hdd => hd ((e.dirty _ _).2 (Or.inr ⟨hun, hdd⟩)), fun i => ?_, fun i => by rw [e.policies, e.domainPolicies]⟩
    have := fun c => closure_new (d := d) e.certsKeep (fun c hcm => by
      rcases hnew c hcm with h | ⟨h1, h2⟩
      · exact Or.inl h
      · refine Or.inr ⟨fun y hy he => ?_, fun hl => h2 (hx.links d c.id hl)⟩
        rcases hx.parents y hy with h3 | h3
        · rw [← he, h3] at h1; simp at h1
        · rw [he] at h3; exact h2 h3) (links' := db'.domainCerts) (fun i => by
      rw [e.links]
      constructor
      · rintro (h | ⟨x, h, he⟩)
        · exact h
        · exact absurd (Prod.mk.inj he).1.symm (hun x (f.links x h))
      · exact Or.inl) c
    unfold ClosureIds
    simp only [this]
  · rcases hnew c hcm with h | ⟨h, _⟩
    · exact hl.certs c h
    · exact h
  · rcases (e.links l).1 hlm with h | ⟨x, h, rfl⟩
    · exact hl.links l h
    · rw [(f.dirty x (f.links x h)).1]; exact hH _
  · obtain ⟨x, b⟩ := r
    rcases (e.dirty x b).1 hr with ⟨⟨y, h, rfl⟩, _⟩ | ⟨_, h⟩
    · rw [(f.dirty y h).1]; exact hH _
    · exact hl.dirty _ h
  · obtain ⟨⟨x, b⟩, hr, rfl⟩ := E2E.isDirty_iff.1 hd
    by_cases hm : ∃ y, dirtyOf st y ∧ y.domainID = x
    · exact E2E.isDirty_iff.2 ⟨(x, false), (e.dirty _ _).2 (Or.inl ⟨hm, rfl⟩), rfl⟩
    · exact E2E.isDirty_iff.2 ⟨(x, b), (e.dirty _ _).2 (Or.inr ⟨fun y h1 h2 => hm ⟨y, h1, h2⟩, hr⟩), rfl⟩

/-- After a batch. -/
theorem batch_xinv {H : Bytes → Bytes} {s : Sys} (hx : XInv s) {items : List Item} (hc : Closed s.db items) {before out : List Stmt} {size : Nat} (h : Tries H items before)
    (hr : FullRun H size items out) : XInv { s with db := execAll (before ++ out) s.db } := by
  have f := tries_facts (tries_complete h hr)
  have e := IngestDb.effect s.db (before ++ out)
  obtain ⟨ds, g⟩ := IngestDb.facts hr
  have hst : ∀ it ∈ items, Stored (execAll (before ++ out) s.db) it.row.id := fun it hi =>
    e.certsHas _ (certRowsOf_append.2 (Or.inr ((g.certs _).2 ⟨it, hi, rfl⟩)))
  have hold : ∀ i, Stored s.db i → Stored (execAll (before ++ out) s.db) i := fun i ⟨y, hy, he⟩ => ⟨y, e.certsKeep y hy, he⟩
  refine ⟨fun c hcm => ?_, fun d i hl => ?_, fun id hid hget => ?_⟩
  · rcases e.certsNew c hcm with h1 | ⟨h1, _⟩
    · exact (hx.parents c h1).imp_right (hold _)
    · obtain ⟨it, hi, rfl⟩ := f.certs c h1
      rcases (hc it hi).2 with h2 | ⟨it', h2, h3⟩ | h2
      · exact Or.inl h2
      · exact Or.inr (h3 ▸ hst it' h2)
      · exact Or.inr (hold _ h2)
  · rcases (e.links _).1 hl with h1 | ⟨x, h1, h2⟩
    · exact hold _ (hx.links d i h1)
    · cases h2
      obtain ⟨_, it, h3, h4, _⟩ := f.dirty x (f.links x h1)
      exact h4 ▸ hst it h3
  · rcases hx.present id hid hget with ⟨i, h1⟩ | ⟨i, h1⟩
    · exact Or.inl ⟨i, (e.links _).2 (Or.inl h1)⟩
    · exact Or.inr ⟨i, by show _ ∈ (execAll (before ++ out) s.db).domainPolicies; rw [e.domainPolicies]; exact h1⟩

theorem batch_dirty_link {H : Bytes → Bytes} {s : Sys} (hd : ∀ d, IsDirty s.db d → HasLink s.db d) {items : List Item} {before out : List Stmt} {size : Nat} (h : Tries H items before)
    (hr : FullRun H size items out) : ∀ d, IsDirty (execAll (before ++ out) s.db) d → HasLink (execAll (before ++ out) s.db) d := by
  have f := tries_facts (tries_complete h hr)
  have e := IngestDb.effect s.db (before ++ out)
  obtain ⟨ds, g⟩ := IngestDb.facts hr
  intro d hdd
  obtain ⟨⟨x, b⟩, hm, rfl⟩ := E2E.isDirty_iff.1 hdd
  rcases (e.dirty x b).1 hm with ⟨⟨y, h1, rfl⟩, _⟩ | ⟨_, h1⟩
  · obtain ⟨h2, it, h3, _, h4⟩ := f.dirty y h1
    obtain ⟨z, h5, h6⟩ := g.complete it h3 y.name h4
    exact Or.inl ⟨z.certID, (e.links _).2 (Or.inr ⟨z, linkOf_append.2 (Or.inr ((g.links z).2 h5)), by show (y.domainID, _) = _; rw [h2, h6]⟩)⟩
  · rcases hd x (E2E.isDirty_iff.2 ⟨_, h1, rfl⟩) with ⟨i, h2⟩ | ⟨i, h2⟩
    · exact Or.inl ⟨i, (e.links _).2 (Or.inl h2)⟩
    · exact Or.inr ⟨i, by show _ ∈ (execAll (before ++ out) s.db).domainPolicies; rw [e.domainPolicies]; exact h2⟩

/-! ## Histories -/

/-- The operations for which the claims hold: complete chains in the files, no pruning, no "onlysmtupdate". -/
def Allowed (s : Sys) : Op → Prop
  | .batch items => Closed s.db items
  | .other op => op.NoPrune
  | .onlySmt => False

/-- Everything that happened since the map server was set up. -/
inductive Run (H : Bytes → Bytes) : List Op → Sys → Prop
  | nil : Run H [] E2E.start
  | snoc {s s' : Sys} (ops : List Op) (op : Op) : Run H ops s → Allowed s op → Step H s op s' → Run H (ops ++ [op]) s'

theorem step_inv {H : Bytes → Bytes} (hH : ∀ x, (H x).length = 32) {s s' : Sys} {op : Op} (hi : SInv H s) (hx : XInv s) (ha : Allowed s op) (h : Step H s op s') :
    SInv H s' ∧ XInv s' := by
  cases h with
  | batch items before out size h1 h2 => exact ⟨tries_sinv hH hi hx ha (tries_complete h1 h2), batch_xinv hx ha h1 h2⟩
  | other op s' hst =>
    obtain ⟨h1, h2⟩ := E2E.step_xinv hH hi hx ha hst
    exact ⟨E2E.step_sinv hH hi h1 hst, h2⟩
  | onlySmt => exact absurd ha id

theorem run_inv {H : Bytes → Bytes} (hH : ∀ x, (H x).length = 32) {ops : List Op} {s : Sys} (h : Run H ops s) : SInv H s ∧ XInv s := by
  induction h with
  | nil => exact ⟨E2E.start_sinv H, E2E.start_xinv⟩
  | snoc ops op _ ha hst ih => exact step_inv hH ih.1 ih.2 ha hst

/-- Links stay. -/
theorem step_links {H : Bytes → Bytes} {s s' : Sys} {op : Op} (hk : Keys s.db) (ha : Allowed s op) (h : Step H s op s') : ∀ l ∈ s.db.domainCerts, l ∈ s'.db.domainCerts := by
  cases h with
  | batch items before out size h1 h2 => exact fun l hl => ((IngestDb.effect s.db _).links l).2 (Or.inl hl)
  | other op s' hst =>
    cases hst with
    | certs leaves chains k st hl hst => exact (E2E.certs_done hl hst k).keepLinks
    | policies keep ps k st hst =>
      intro l hl
      show l ∈ (runSteps (st.take k) s.db).domainCerts
      rw [(E2E.policies_done hst k).domainCerts]
      exact hl
    | prune => exact absurd ha (by simp [Allowed, E2E.Op.NoPrune])
    | pruneCut => exact absurd ha (by simp [Allowed, E2E.Op.NoPrune])
    | coalesce p fuel chunk n db' h1 h2 h3 hcd =>
      obtain ⟨db1, k, h4, h5, _⟩ := calc_step hk (Progress.refl s.db) fuel p chunk h1 h2 h3
      rw [hcd] at h4
      cases h4
      intro l hl
      show l ∈ db'.domainCerts
      rw [h5.domainCerts]
      exact hl
    | smt => exact fun l hl => hl
    | finish => exact fun l hl => hl
    | reload => exact fun l hl => hl
  | onlySmt => exact absurd ha id

/-- An ingested name has a link to an ingested certificate with this name. -/
theorem run_linked {H : Bytes → Bytes} (hH : ∀ x, (H x).length = 32) {ops : List Op} {s : Sys} (h : Run H ops s) {items : List Item} (hb : Op.batch items ∈ ops) :
    ∀ it ∈ items, ∀ n ∈ it.names, ∃ c, Named H items (H n) c ∧ (H n, c) ∈ s.db.domainCerts := by
  induction h with
  | nil => cases hb
  | @snoc s s' ops op hr ha hst ih =>
    intro it hi n hn
    rcases List.mem_append.1 hb with hb | hb
    · obtain ⟨c, h1, h2⟩ := ih hb it hi n hn
      exact ⟨c, h1, step_links (run_inv hH hr).1.inv.keys ha hst _ h2⟩
    · cases List.mem_singleton.1 hb
      cases hst with
      | batch _ before out size h1 h2 =>
        obtain ⟨_, _, h3⟩ := (IngestDb.C118_complete h2 (execAll before s.db) it hi).2 n hn
        have : execAll out (execAll before s.db) = execAll (before ++ out) s.db := by simp [execAll]
        rw [this] at h3
        exact h3

/-! ## C120 -/

/-- **C120 (partial: complete chains, no pruning, no "onlysmtupdate").** Whatever the ingest command and the map server did, and also while a batch is being ingested or after it was interrupted any
number of times (`st`), the answers for names that are not dirty verify, and say exactly which certificates (with their stored ancestors) and policies the tables have for the name. -/
theorem C120_answers_partial (H : Bytes → Bytes) (hH : ∀ x, (H x).length = 32) (psl : Psl) (ops : List Op) (s : Sys) (hrun : Run H ops s) (items : List Item) (hc : Closed s.db items)
    (st : List Stmt) (hst : Tries H items st) (hserved : s.served = s.tree) (db : DB) (hdb : db = execAll st s.db)
    (name : Bytes) (out : Option (List Response)) (h : GetProof H psl s.served (tableOf db) name out) :
    out.map (List.map Response.domainName) = parseDomainName psl name ∧
    ∀ as, out = some as → ∀ a ∈ as, ¬ IsDirty db (H a.domainName) →
      a.domainID = H a.domainName ∧ a.root = rootHash H 256 s.tree ∧ verifyProofByDomain H a = some (a.proofType, true) ∧
      ∃ cs ps : List Bytes, Ascending cs ∧ Ascending ps ∧
        (∀ i, i ∈ cs ↔ ∃ c, InClosure db.certs db.domainCerts (H a.domainName) c ∧ c.id = i) ∧
        (∀ i, i ∈ ps ↔ (∃ c ∈ db.policies, c.id = i) ∧ (H a.domainName, i) ∈ db.domainPolicies) ∧
        (a.proofType = PoP ↔ cs ++ ps ≠ []) ∧
        (a.proofType = PoP → a.certIDs = cs.flatten ∧ a.policyIDs = ps.flatten ∧ ClientChecks H a.domainName a) := by
  subst hdb
  obtain ⟨hi, hx⟩ := run_inv hH hrun
  exact E2E.answers_of_sinv hH psl (s := { s with db := execAll st s.db }) (tries_sinv hH hi hx hc hst) hserved name out h

/-- **C120 (partial: as above).** Every name of every ingested certificate that is not dirty has an answer of presence, with a certificate of the batch that has this name; if the batch has only one with
this name, then with this one. -/
theorem C120_ingested_partial (H : Bytes → Bytes) (hH : ∀ x, (H x).length = 32) (psl : Psl) (ops : List Op) (s : Sys) (hrun : Run H ops s) (hserved : s.served = s.tree)
    (items : List Item) (hb : Op.batch items ∈ ops) (it : Item) (hi : it ∈ items) (n : Bytes) (hn : n ∈ it.names) (hd : ¬ IsDirty s.db (H n))
    (name : Bytes) (as : List Response) (h : GetProof H psl s.served (tableOf s.db) name (some as)) (a : Response) (ha : a ∈ as) (han : a.domainName = n) :
    a.proofType = PoP ∧ verifyProofByDomain H a = some (PoP, true) ∧ ∃ ids : List Bytes, a.certIDs = ids.flatten ∧ (∀ i ∈ ids, i.length = 32) ∧
      (∃ c ∈ ids, Named H items (H n) c) ∧ ((∀ c, Named H items (H n) c → c = it.row.id) → it.row.id ∈ ids) := by
  obtain ⟨hsi, hx⟩ := run_inv hH hrun
  obtain ⟨c, h1, h2⟩ := run_linked hH hrun hb it hi n hn
  obtain ⟨_, h3⟩ := E2E.answers_of_sinv hH psl hsi hserved name _ h
  obtain ⟨_, _, h4, cs, ps, _, _, h5, _, h6, h7⟩ := h3 as rfl a ha (by rw [han]; exact hd)
  rw [han] at h5 h7
  obtain ⟨r, hr, he⟩ := hx.links _ _ h2
  have hin : c ∈ cs := (h5 c).2 ⟨r, .link r hr (by rw [he]; exact h2), he⟩
  have hp : a.proofType = PoP := h6.2 (by intro h0; rw [(List.append_eq_nil_iff.1 h0).1] at hin; cases hin)
  rw [hp] at h4
  refine ⟨hp, h4, cs, (h7 hp).1, fun i hci => ?_, ⟨c, hin, h1⟩, fun ho => ?_⟩
  · obtain ⟨r, hr, rfl⟩ := (h5 i).1 hci
    exact hsi.len.certs r hr.mem
  · rw [← ho c h1]; exact hin

/-- Only the ingest command has put data into the DB. -/
def Op.OnlyIngest : Op → Prop
  | .batch _ | .other (.coalesce _) | .other .smt | .other .finish | .other .reload => True
  | _ => False

theorem only_ingest {H : Bytes → Bytes} (hH : ∀ x, (H x).length = 32) {ops : List Op} {s : Sys} (h : Run H ops s) (ho : ∀ op ∈ ops, op.OnlyIngest) :
    (∀ r ∈ s.db.certs, ∃ items, Op.batch items ∈ ops ∧ ∃ it ∈ items, it.row = r) ∧
    (∀ d c, (d, c) ∈ s.db.domainCerts → ∃ items, Op.batch items ∈ ops ∧ Named H items d c) ∧ s.db.domainPolicies = [] := by
  induction h with
  | nil => simp [E2E.start]
  | @snoc s s' ops op hr ha hst ih =>
    obtain ⟨h1, h2, h3⟩ := ih fun o h => ho o (List.mem_append_left _ h)
    have old : (∀ r ∈ s.db.certs, ∃ items, Op.batch items ∈ ops ++ [op] ∧ ∃ it ∈ items, it.row = r) ∧
        (∀ d c, (d, c) ∈ s.db.domainCerts → ∃ items, Op.batch items ∈ ops ++ [op] ∧ Named H items d c) ∧ s.db.domainPolicies = [] := by
      refine ⟨fun r hr => ?_, fun d c hl => ?_, h3⟩
      · obtain ⟨items, g1, g2⟩ := h1 r hr
        exact ⟨items, List.mem_append_left _ g1, g2⟩
      · obtain ⟨items, g1, g2⟩ := h2 d c hl
        exact ⟨items, List.mem_append_left _ g1, g2⟩
    have hop := ho op (by simp)
    cases hst with
    | batch items before out size g1 g2 =>
      have f := tries_facts (tries_complete g1 g2)
      have e := IngestDb.effect s.db (before ++ out)
      refine ⟨fun r hr => ?_, fun d c hl => ?_, e.domainPolicies.trans h3⟩
      · rcases e.certsNew r hr with h | ⟨h, _⟩
        · exact old.1 r h
        · exact ⟨items, by simp, f.certs r h⟩
      · rcases (e.links _).1 hl with h | ⟨x, h, he⟩
        · exact old.2.1 d c h
        · cases he
          obtain ⟨k1, it, k2, k3, k4⟩ := f.dirty x (f.links x h)
          exact ⟨items, by simp, it, k2, k3, x.name, k4, k1.symm⟩
    | onlySmt => exact absurd ha id
    | other op s' hst =>
      cases hst with
      | certs => exact absurd hop id
      | policies => exact absurd hop id
      | prune => exact absurd hop id
      | pruneCut => exact absurd hop id
      | coalesce p fuel chunk n db' g1 g2 g3 hcd =>
        obtain ⟨db1, k, h4, h5, _⟩ := calc_step (run_inv hH hr).1.inv.keys (Progress.refl s.db) fuel p chunk g1 g2 g3
        rw [hcd] at h4
        cases h4
        show (∀ r ∈ db'.certs, _) ∧ (∀ d c, (d, c) ∈ db'.domainCerts → _) ∧ db'.domainPolicies = []
        rw [h5.certs, h5.domainCerts, h5.domainPolicies]
        exact old
      | smt => exact old
      | finish => exact old
      | reload => exact old

theorem closure_link {certs : List Cert} {links : List (Bytes × Bytes)} {d : Bytes} {c : Cert} (h : InClosure certs links d c) : ∃ i, (d, i) ∈ links := by
  induction h with
  | link c _ hl => exact ⟨_, hl⟩
  | parent _ _ _ _ _ ih => exact ih

/-- **C120, nothing else (partial: as above, and the data comes from the ingest command only).** An answer for a name that is not dirty says "present" only if an ingested certificate has this name, and returns no
ID of a certificate that was not ingested, and no policy. -/
theorem C120_only_partial (H : Bytes → Bytes) (hH : ∀ x, (H x).length = 32) (psl : Psl) (ops : List Op) (s : Sys) (hrun : Run H ops s) (ho : ∀ op ∈ ops, op.OnlyIngest) (hserved : s.served = s.tree)
    (name : Bytes) (as : List Response) (h : GetProof H psl s.served (tableOf s.db) name (some as)) (a : Response) (ha : a ∈ as) (hd : ¬ IsDirty s.db (H a.domainName)) (hp : a.proofType = PoP) :
    (∃ items c, Op.batch items ∈ ops ∧ Named H items (H a.domainName) c) ∧ a.policyIDs = [] ∧
    ∃ ids : List Bytes, a.certIDs = ids.flatten ∧ ∀ i ∈ ids, i.length = 32 ∧ ∃ items, Op.batch items ∈ ops ∧ ∃ it ∈ items, it.row.id = i := by
  obtain ⟨hsi, hx⟩ := run_inv hH hrun
  obtain ⟨o1, o2, o3⟩ := only_ingest hH hrun ho
  obtain ⟨_, h3⟩ := E2E.answers_of_sinv hH psl hsi hserved name _ h
  obtain ⟨_, _, h4, cs, ps, _, _, h5, h5', h6, h7⟩ := h3 as rfl a ha hd
  have hps : ps = [] := List.eq_nil_iff_forall_not_mem.2 fun i hi => by
    have := ((h5' i).1 hi).2
    rw [o3] at this
    cases this
  subst hps
  have hne := h6.1 hp
  rw [List.append_nil] at hne
  obtain ⟨i, hci⟩ := List.exists_mem_of_ne_nil _ hne
  obtain ⟨r, hr, _⟩ := (h5 i).1 hci
  obtain ⟨c, hl⟩ := closure_link hr
  obtain ⟨items, g1, g2⟩ := o2 _ _ hl
  refine ⟨⟨items, c, g1, g2⟩, (h7 hp).2.1, cs, (h7 hp).1, fun i hi => ?_⟩
  obtain ⟨r, hr, rfl⟩ := (h5 i).1 hi
  obtain ⟨items, g1, it, g2, rfl⟩ := o1 r hr.mem
  exact ⟨hsi.len.certs _ hr.mem, items, g1, it, g2, rfl⟩

/-! ### The command comes to its end -/

/-- The operation is not interrupted. -/
def Op.Complete : Op → Prop
  | .other op => op.Complete
  | _ => True

theorem run_dirty_link {H : Bytes → Bytes} (hH : ∀ x, (H x).length = 32) {ops : List Op} {s : Sys} (h : Run H ops s) (hcm : ∀ op ∈ ops, op.Complete) :
    ∀ d, IsDirty s.db d → HasLink s.db d := by
  induction h with
  | nil => intro d hd; simp [IsDirty, E2E.start] at hd
  | @snoc s s' ops op hr ha hst ih =>
    have h1 := ih (fun o ho => hcm o (List.mem_append_left _ ho))
    cases hst with
    | batch items before out size h2 h3 => exact batch_dirty_link h1 h2 h3
    | other op s' hst => exact E2E.step_dirty_link (run_inv hH hr).1.inv.keys h1 ha (hcm (.other op) (by simp)) hst
    | onlySmt => exact absurd ha id

theorem steps_cons {H : Bytes → Bytes} {s s' s'' : Sys} {op : Op} {ops : List Op} (h : Step H s op s') (hs : Steps H s' ops s'') : Steps H s (op :: ops) s'' := by
  induction hs with
  | nil => exact .snoc [] op (.nil s) h
  | snoc ops op' _ hst ih => exact .snoc _ op' ih hst

theorem coalesce_all {H : Bytes → Bytes} (hH : ∀ x, (H x).length = 32) : ∀ (n : Nat) (ops : List Op) (s : Sys), waitingCount s.db ≤ n → Run H ops s →
    ∃ (ps : List Nat) (s' : Sys), Run H (ops ++ ps.map fun p => .other (.coalesce p)) s' ∧ Steps H s (ps.map fun p => .other (.coalesce p)) s' ∧ ∀ d, (d, false) ∉ s'.db.dirty := by
  intro n
  induction n with
  | zero =>
    intro ops s h hr
    refine ⟨[], s, by simpa using hr, .nil s, fun d hd => ?_⟩
    have : 0 < waitingCount s.db := List.countP_pos_iff.2 ⟨_, hd, rfl⟩
    omega
  | succ n ih =>
    intro ops s h hr
    by_cases hall : ∀ d, (d, false) ∉ s.db.dirty
    · exact ⟨[], s, by simpa using hr, .nil s, hall⟩
    · simp only [not_forall, not_not] at hall
      obtain ⟨d, hd⟩ := hall
      have hi := (run_inv hH hr).1
      let fuel := s.db.certs.length + s.db.policies.length + 1
      obtain ⟨db', k, h1, h2, h3, h4, h5⟩ := calc_step hi.inv.keys (Progress.refl s.db) fuel (shardOf d) 1 (by omega) (by omega) (by omega)
      have hk : k ≠ 0 := by
        intro h0
        obtain ⟨e, h6⟩ := h4 h0
        rw [e] at h6
        exact h6 d rfl hd
      have hst : E2E.Step H s (.coalesce (shardOf d)) { s with db := db' } := .coalesce (shardOf d) fuel 1 k db' (by omega) (by omega) (by omega) h1
      have h6 := h5 hk
      have hstep : Step H s (.other (.coalesce (shardOf d))) { s with db := db' } := .other _ _ hst
      obtain ⟨ps, s', h7, h7', h8⟩ := ih (ops ++ [.other (.coalesce (shardOf d))]) { s with db := db' } (by show waitingCount db' ≤ n; omega)
        (.snoc _ (.other (.coalesce (shardOf d))) hr True.intro hstep)
      exact ⟨shardOf d :: ps, s', by simpa using h7, steps_cons hstep h7', h8⟩

theorem smt_outcome {H : Bytes → Bytes} {s : Sys} (hi : SInv H s) (hx : XInv s) (hl : ∀ d, IsDirty s.db d → HasLink s.db d) (hw : ∀ d, (d, false) ∉ s.db.dirty) :
    ∃ t', E2E.UpdateSMT H 1 s.db s.tree (some t') := by
  obtain ⟨o, ho⟩ := E2E.updateSMT_exists H hi.inv.keys.dirty s.tree (max := 1) (by omega)
  cases ho with
  | clean h => exact ⟨_, .clean h⟩
  | run q fuel n bundles t' hne hq hf hnn hc hr =>
    have hs := E2E.smt_safe hi hx hw 1 fuel n q bundles t' (by omega) hq hf hnn hc hr
    obtain ⟨_, h3⟩ := E2E.smt_sync hi (by omega) hq hf hnn hc hs
    obtain ⟨r, hr'⟩ := List.exists_mem_of_ne_nil _ hne
    have h4 := (E2E.sync_hasLink hi hx hw h3 r.1 (hi.len.dirty r hr')).2 (hl r.1 (E2E.isDirty_iff.2 ⟨r, hr', rfl⟩))
    have h5 : t' ≠ .empty := by
      rintro rfl
      exact h4 rfl
    have := E2E.UpdateSMT.run q fuel n bundles t' hne hq hf hnn hc hr
    rw [if_neg h5] at this
    exact ⟨t', this⟩

/-- A pipeline for the batch can always run to its end. -/
theorem fullRun_exists (H : Bytes → Bytes) (size : Nat) (items : List Item) : ∃ out, FullRun H size items out ∧ out.length = 4 := by
  have ex : ∀ l : List (Bytes × Bytes), IngestDb.Extract H size [] l (l.map fun p => ⟨H p.2, p.1, p.2⟩) := by
    intro l
    induction l using List.reverseRecOn with
    | nil => exact .start
    | append_singleton l p ih =>
      have := IngestDb.Extract.emit p.1 p.2 ih rfl
      rw [List.map_append]
      exact this
  exact ⟨_, ⟨_, _, _, [[items]], [[(IngestDb.pairs items).map fun p => ⟨H p.2, p.1, p.2⟩]], ex _, .refl _, by simp, by simp,
    .step 0 _ [] rfl (.step 1 _ [.domains _, .links _] rfl (.step 1 _ [.links _] rfl (.step 1 _ [] rfl (.done (by simp)))))⟩, rfl⟩

/-- **C120, liveness (partial: as above, and nothing else interrupted).** The command can ingest a batch after any tries at it, recompute the payloads, update the tree and clean up: then nothing is dirty. -/
theorem C120_completes_partial (H : Bytes → Bytes) (hH : ∀ x, (H x).length = 32) (ops : List Op) (s : Sys) (hrun : Run H ops s) (hcm : ∀ op ∈ ops, op.Complete) (items : List Item)
    (hc : Closed s.db items) (before : List Stmt) (hb : Tries H items before) :
    ∃ (out : List Stmt) (ps : List Nat) (s' : Sys), FullRun H 1 items out ∧
      Steps H { s with db := execAll out (execAll before s.db) } ((ps.map fun p => .other (.coalesce p)) ++ [.other .finish, .other .reload]) s' ∧
      Run H (ops ++ [.batch items] ++ ((ps.map fun p => .other (.coalesce p)) ++ [.other .finish, .other .reload])) s' ∧ s'.served = s'.tree ∧ s'.db.dirty = [] := by
  obtain ⟨out, ho, _⟩ := fullRun_exists H 1 items
  have he : execAll out (execAll before s.db) = execAll (before ++ out) s.db := by simp [execAll]
  have r1 : Run H (ops ++ [.batch items]) { s with db := execAll (before ++ out) s.db } := .snoc _ _ hrun hc (.batch items before out 1 hb ho)
  obtain ⟨ps, s2, r2, s2', hw⟩ := coalesce_all hH _ _ _ (Nat.le_refl _) r1
  have hcm2 : ∀ op ∈ ops ++ [.batch items] ++ (ps.map fun p => .other (.coalesce p)), op.Complete := by
    intro op h
    rcases List.mem_append.1 h with h | h
    · rcases List.mem_append.1 h with h | h
      · exact hcm op h
      · cases List.mem_singleton.1 h; exact True.intro
    · obtain ⟨p, _, rfl⟩ := List.mem_map.1 h; exact True.intro
  obtain ⟨hi, hx⟩ := run_inv hH r2
  obtain ⟨t', ht⟩ := smt_outcome hi hx (run_dirty_link hH r2 hcm2) hw
  have f1 : Step H s2 (.other .finish) _ := .other _ _ (.finish 1 t' (by omega) hw ht)
  have f2 : Step H { s2 with db := cleanupDirty s2.db, tree := t' } (.other .reload) { s2 with db := cleanupDirty s2.db, tree := t', served := t' } := .other _ _ .reload
  have r4 := Run.snoc _ (.other .reload) (Run.snoc _ (.other .finish) r2 True.intro f1) True.intro f2
  have q4 := Steps.snoc _ (.other .reload) (Steps.snoc _ (.other .finish) s2' f1) f2
  exact ⟨out, ps, _, ho, by rw [he]; simpa using q4, by simpa using r4, rfl, rfl⟩

/-! ### What does not hold -/

/-- The map server and the ingest command without new data: recomputing, updating the tree, loading it. -/
def Op.Idle : Op → Prop
  | .other (.coalesce _) | .other .smt | .other .finish | .other .reload | .onlySmt => True
  | _ => False

/-- Nothing that is not marked is ever recomputed. -/
theorem idle_step {H : Bytes → Bytes} {s s' : Sys} {op : Op} (hk : Keys s.db) (hd : s.db.dirty = []) (ho : op.Idle) (h : Step H s op s') :
    s'.db.certs = s.db.certs ∧ s'.db.domainCerts = s.db.domainCerts ∧ s'.db.dirty = [] ∧ Keys s'.db ∧ (∀ r, r ∈ s'.db.payloads ↔ r ∈ s.db.payloads) ∧ s'.tree = s.tree := by
  have smt : ∀ max t', E2E.UpdateSMT H max s.db s.tree (some t') → t' = s.tree := by
    intro max t' hu
    generalize hq : some t' = o at hu
    cases hu with
    | clean _ => cases hq; rfl
    | run q fuel n bundles t1 hne => exact absurd hd hne
  cases h with
  | batch => exact absurd ho id
  | other op s' hst =>
    cases hst with
    | certs => exact absurd ho id
    | policies => exact absurd ho id
    | prune => exact absurd ho id
    | pruneCut => exact absurd ho id
    | coalesce p fuel chunk n db' h1 h2 h3 hcd =>
      obtain ⟨db1, k, h4, h5, _⟩ := calc_step hk (Progress.refl s.db) fuel p chunk h1 h2 h3
      rw [hcd] at h4
      cases h4
      have hd' : db'.dirty = [] := by
        have := h5.dirtyKeys
        rw [hd] at this
        exact List.map_eq_nil_iff.1 this
      refine ⟨h5.certs, h5.domainCerts, hd', ⟨by rw [h5.certs]; exact hk.certs, by rw [h5.policies]; exact hk.policies, by rw [hd']; exact List.nodup_nil⟩, fun r => ?_, rfl⟩
      rw [h5.payloads]
      have : ¬ Done s.db db' r.domain := fun h => by have := h.1; rw [hd] at this; cases this
      simp [this]
    | smt max t' _ _ hu => exact ⟨rfl, rfl, hd, hk, fun _ => Iff.rfl, smt max t' hu⟩
    | finish max t' _ _ hu => exact ⟨rfl, rfl, rfl, ⟨hk.certs, hk.policies, List.nodup_nil⟩, fun _ => Iff.rfl, smt max t' hu⟩
    | reload => exact ⟨rfl, rfl, hd, hk, fun _ => Iff.rfl, rfl⟩
  | onlySmt max t' _ hu => exact ⟨rfl, rfl, rfl, ⟨hk.certs, hk.policies, List.nodup_nil⟩, fun _ => Iff.rfl, smt max t' hu⟩

theorem idle_steps {H : Bytes → Bytes} {s s' : Sys} {ops : List Op} (h : Steps H s ops s') (hk : Keys s.db) (hd : s.db.dirty = []) (ho : ∀ op ∈ ops, op.Idle) :
    s'.db.certs = s.db.certs ∧ s'.db.domainCerts = s.db.domainCerts ∧ s'.db.dirty = [] ∧ Keys s'.db ∧ (∀ r, r ∈ s'.db.payloads ↔ r ∈ s.db.payloads) ∧ s'.tree = s.tree := by
  induction h with
  | nil => exact ⟨rfl, rfl, hd, hk, fun _ => Iff.rfl, rfl⟩
  | snoc ops op _ hst ih =>
    obtain ⟨a1, a2, a3, a4, a5, a6⟩ := ih (fun o h => ho o (List.mem_append_left _ h))
    obtain ⟨b1, b2, b3, b4, b5, b6⟩ := idle_step a4 a3 (ho op (by simp)) hst
    exact ⟨b1.trans a1, b2.trans a2, b3, b4, fun r => (b5 r).trans (a5 r), b6.trans a6⟩

theorem tableOf_none {db : DB} {d : Bytes} (h : ∀ r ∈ db.payloads, r.domain ≠ d) : tableOf db d = ⟨[], []⟩ := by
  have : db.payloads.find? (fun r => r.domain == d) = none := List.find?_eq_none.2 fun r hr => by
    have := h r hr
    simpa using this
  unfold tableOf
  rw [this]

/-- After a batch on a DB in which everything was recomputed, UpdateSMT works without recomputing, and makes the tree agree with the (old) payloads. -/
theorem early_smt {H : Bytes → Bytes} (hH : ∀ x, (H x).length = 32) {s : Sys} (hi : SInv H s) (hx : XInv s) (hw : ∀ d, (d, false) ∉ s.db.dirty) {items : List Item} (hc : Closed s.db items)
    {st : List Stmt} (ht : Tries H items st) : E2E.Safe H { s with db := execAll st s.db } .smt := by
  intro max fuel n q bundles t' hmax hq hf hn hc' hr
  have hi1 := tries_sinv hH hi hx hc ht
  have hp := E2E.collect_perm hi1.inv.keys.dirty hmax hf hn hc'
  obtain ⟨hist, hg, htr⟩ := hi.tree
  have h32 : ∀ id ∈ bundles.flatten, id.length = 32 := by
    intro id hid
    obtain ⟨r, hr, rfl⟩ := List.mem_map.1 (hp.mem_iff.1 hid)
    exact hi1.len.dirty r hr
  refine E2E.safe_of_no_delete hr bundles hist rfl htr hg (hp.nodup_iff.2 hi1.inv.keys.dirty) (fun id h => by have := h32 id h; omega) ?_
  intro id hid hget
  refine E2E.query_nonempty hq ?_
  have he : tableOf (execAll st s.db) = tableOf s.db := by
    funext d
    unfold tableOf
    rw [(IngestDb.effect s.db st).payloads]
  show (tableOf (execAll st s.db) id).ids ≠ []
  rw [he]
  exact (E2E.hasLink_ids hi hx (hw id)).2 (hx.present id (h32 id hid) hget)

/-- **C120, violated.** On any map server with at least one name in it whose payloads are all recomputed: after a batch is ingested and then the command is run with the strategy "onlysmtupdate" (which is always
possible), a new name of the batch is forgotten. Its certificates are stored and linked, but it is not dirty any more and no recomputation, update of the tree or reload changes anything: the map
server proves the absence of the name. -/
theorem C120_forgotten_violated (H : Bytes → Bytes) (hH : ∀ x, (H x).length = 32) (psl : Psl) (ops : List Op) (s : Sys) (hrun : Run H ops s) (hw : ∀ d, (d, false) ∉ s.db.dirty)
    (d0 : Bytes) (hd0 : d0.length = 32 ∧ HasLink s.db d0) (items : List Item) (hc : Closed s.db items) (it : Item) (hi : it ∈ items) (n : Bytes) (hn : n ∈ it.names)
    (hnew : ∀ r ∈ s.db.payloads, r.domain ≠ H n) :
    (∃ s2, Steps H s [.batch items, .onlySmt] s2) ∧
    ∀ s2, Steps H s [.batch items, .onlySmt] s2 → ∀ more s3, Steps H s2 more s3 → (∀ op ∈ more, op.Idle) →
      Stored s3.db it.row.id ∧ (∃ c, Named H items (H n) c ∧ (H n, c) ∈ s3.db.domainCerts) ∧ s3.db.dirty = [] ∧
      (s3.served = s3.tree → ∀ name as, GetProof H psl s3.served (tableOf s3.db) name (some as) → ∀ a ∈ as, a.domainName = n →
        a.proofType = PoA ∧ verifyProofByDomain H a = some (PoA, true)) := by
  obtain ⟨hsi, hx⟩ := run_inv hH hrun
  constructor
  · obtain ⟨out, ho, _⟩ := fullRun_exists H 1 items
    have ht := tries_complete .none ho
    have hi1 := tries_sinv hH hsi hx hc ht
    obtain ⟨o, hu⟩ := E2E.updateSMT_exists H hi1.inv.keys.dirty s.tree (max := 1) (by omega)
    obtain ⟨t', rfl⟩ : ∃ t', o = some t' := by
      cases hu with
      | clean _ => exact ⟨_, rfl⟩
      | run q fuel k bundles t' hne hq hf hnn hcl hr =>
        have hs := early_smt hH hsi hx hw hc ht 1 fuel k q bundles t' (by omega) hq hf hnn hcl hr
        obtain ⟨_, h3⟩ := E2E.smt_sync hi1 (by omega) hq hf hnn hcl hs
        have h4 := h3 d0 hd0.1
        have he : tableOf (execAll ([] ++ out) s.db) = tableOf s.db := by
          funext d
          unfold tableOf
          rw [(IngestDb.effect s.db _).payloads]
        have h5 : t' ≠ .empty := by
          rintro rfl
          unfold SyncAt at h4
          dsimp only at h4
          rw [he, if_neg ((E2E.hasLink_ids hsi hx (hw d0)).2 hd0.2)] at h4
          obtain ⟨v, _, h6⟩ := h4
          cases h6
        rw [if_neg h5]
        exact ⟨t', rfl⟩
    exact ⟨_, .snoc [.batch items] _ (.snoc [] _ (.nil s) (.batch items [] out 1 .none ho)) (.onlySmt 1 t' (by omega) hu)⟩
  · intro s2 h2 more s3 h3 hidle
    obtain ⟨before, out, size, max, t', hb, ho, hmax, hu, rfl⟩ : ∃ (before out : List Stmt) (size max : Nat) (t' : Node), Tries H items before ∧ FullRun H size items out ∧ 0 < max ∧
        E2E.UpdateSMT H max (execAll (before ++ out) s.db) s.tree (some t') ∧ s2 = { s with db := cleanupDirty (execAll (before ++ out) s.db), tree := t' } := by
      generalize hl : [Op.batch items, Op.onlySmt] = l at h2
      cases h2 with
      | nil => cases hl
      | snoc l1 op1 g1 g2 =>
        obtain ⟨e1, e2⟩ := List.append_inj' (show [Op.batch items] ++ [Op.onlySmt] = l1 ++ [op1] from hl) rfl
        cases e2
        generalize hl1 : [Op.batch items] = l at e1
        subst e1
        cases g1 with
        | nil => cases hl1
        | snoc l2 op2 k1 k2 =>
          obtain ⟨e1, e2⟩ := List.append_inj' (show [] ++ [Op.batch items] = l2 ++ [op2] from hl1) rfl
          cases e2
          subst e1
          generalize hl2 : ([] : List Op) = l at k1
          cases k1 with
          | snoc l3 _ _ _ => exact absurd hl2 (by simp)
          | nil =>
            cases k2 with
            | batch _ before out size hb ho =>
              cases g2 with
              | onlySmt max t' hmax hu => exact ⟨before, out, size, max, t', hb, ho, hmax, hu, rfl⟩
    have ht := tries_complete hb ho
    have hi1 := tries_sinv hH hsi hx hc ht
    have hc1 := (IngestDb.C118_complete ho (execAll before s.db) it hi)
    have he1 : execAll out (execAll before s.db) = execAll (before ++ out) s.db := by simp [execAll]
    rw [he1] at hc1
    obtain ⟨htree, hsync⟩ := E2E.updateSMT_sync hi1 hmax (early_smt hH hsi hx hw hc ht) hu
    obtain ⟨a1, a2, a3, a4, a5, a6⟩ := idle_steps h3 ⟨hi1.inv.keys.certs, hi1.inv.keys.policies, List.nodup_nil⟩ rfl hidle
    have hrow : ∀ r ∈ s3.db.payloads, r.domain ≠ H n := fun r hr => by
      have := (a5 r).1 hr
      exact hnew r (by rw [← (IngestDb.effect s.db (before ++ out)).payloads]; exact this)
    refine ⟨?_, ?_, a3, fun hsv name as hg a ha han => ?_⟩
    · unfold Stored
      rw [a1]
      exact hc1.1
    · rw [a2]
      exact (hc1.2 n hn).2.2
    · rw [hsv, a6] at hg
      obtain ⟨hist, hgood, hrun'⟩ := htree
      have hy : SyncAt H t' (tableOf s3.db) (H n) := by
        have h1 := hsync (H n) (hH n)
        have e1 : tableOf (execAll (before ++ out) s.db) (H n) = ⟨[], []⟩ := tableOf_none fun r hr => by
          rw [(IngestDb.effect s.db (before ++ out)).payloads] at hr
          exact hnew r hr
        unfold SyncAt at h1 ⊢
        rw [tableOf_none hrow]
        dsimp only at h1
        rw [e1] at h1
        exact h1
      unfold GetProof at hg
      cases hp : parseDomainName psl name with
      | none => rw [hp] at hg; cases hg
      | some parts =>
        rw [hp] at hg
        obtain ⟨as', h1, h2⟩ := hg
        cases h2
        obtain ⟨part, _, hans⟩ := E2E.forall2_mem h1 ha
        have hnm := E2E.answerFor_name hans
        rw [han] at hnm
        subst hnm
        rw [show (({ s with db := cleanupDirty (execAll (before ++ out) s.db), tree := t' } : Sys).tree) = run 256 hist from hrun'] at hans
        rw [hrun'] at hy
        obtain ⟨_, _, _, k3, _, k5⟩ := answer_key H hH hist hgood (tableOf s3.db) _ a hy hans
        have hne : a.proofType ≠ PoP := fun h => by
          have := k3.1 h
          rw [han, tableOf_none hrow, E2E.row_ids_nil] at this
          exact this rfl
        have hpoa : a.proofType = PoA := by
          unfold AnswerFor at hans
          dsimp only at hans
          split at hans
          · obtain ⟨v, _, rfl⟩ := hans
            exact absurd rfl hne
          · rw [hans]
        rw [hpoa] at k5
        exact ⟨hpoa, k5⟩

/-! ### The conditions are met -/

/-- A certificate with its issuer, and one more certificate with another name. -/
def exItems : List Item := [⟨⟨exH [7], exH [8], 90, [7]⟩, [[1]]⟩, ⟨⟨exH [8], [], 95, [8]⟩, []⟩]
def exItems' : List Item := [⟨⟨exH [9], exH [8], 90, [9]⟩, [[2], [1]]⟩, ⟨⟨exH [8], [], 95, [8]⟩, []⟩]

theorem exClosed : Closed E2E.start.db exItems := by
  intro it h
  simp only [exItems, List.mem_cons, List.not_mem_nil, or_false] at h
  rcases h with rfl | rfl
  · exact ⟨exH_length _, Or.inr (Or.inl ⟨_, List.mem_cons_of_mem _ (List.mem_singleton.2 rfl), rfl⟩)⟩
  · exact ⟨exH_length _, Or.inl rfl⟩

/-- A try that was interrupted, the batch, all of the update: then the second batch meets the conditions of all the theorems. -/
example : ∃ (ops : List Op) (s : Sys), Run exH ops s ∧ (∀ op ∈ ops, op.Complete) ∧ (∀ op ∈ ops, op.OnlyIngest) ∧ Op.batch exItems ∈ ops ∧ s.served = s.tree ∧
    (∀ d, (d, false) ∉ s.db.dirty) ∧ ¬ IsDirty s.db (exH [1]) ∧ (exH [1]).length = 32 ∧ HasLink s.db (exH [1]) ∧ Closed s.db exItems' ∧
    (∃ st, Tries exH exItems' st ∧ st.length = 3) ∧ ∀ r ∈ s.db.payloads, r.domain ≠ exH [2] := by
  obtain ⟨out0, ho0, hl0⟩ := fullRun_exists exH 5 exItems
  obtain ⟨out, ps, s', h1, _, h3, h4, h5⟩ := C120_completes_partial exH exH_length [] E2E.start .nil (by simp) exItems exClosed _ (.more 5 out0 2 .none ho0)
  have hb : Op.batch exItems ∈ [] ++ [Op.batch exItems] ++ ((ps.map fun p => .other (.coalesce p)) ++ [.other .finish, .other .reload]) := by simp
  obtain ⟨hi, hx⟩ := run_inv exH_length h3
  obtain ⟨c, g1, g2⟩ := run_linked exH_length h3 hb ⟨⟨exH [7], exH [8], 90, [7]⟩, [[1]]⟩ (by simp [exItems]) [1] (by simp)
  have hop : ∀ op ∈ [] ++ [Op.batch exItems] ++ ((ps.map fun p => .other (.coalesce p)) ++ [.other .finish, .other .reload]),
      op = .batch exItems ∨ (∃ p, op = .other (.coalesce p)) ∨ op = .other .finish ∨ op = .other .reload := by
    intro op ho
    simp only [List.nil_append, List.mem_append, List.mem_map, List.mem_cons, List.not_mem_nil, or_false] at ho
    rcases ho with rfl | ⟨p, _, rfl⟩ | rfl | rfl
    · exact Or.inl rfl
    · exact Or.inr (Or.inl ⟨p, rfl⟩)
    · exact Or.inr (Or.inr (Or.inl rfl))
    · exact Or.inr (Or.inr (Or.inr rfl))
  have honly : ∀ op ∈ [] ++ [Op.batch exItems] ++ ((ps.map fun p => .other (.coalesce p)) ++ [.other .finish, .other .reload]), op.OnlyIngest := by
    intro op ho
    rcases hop op ho with rfl | ⟨p, rfl⟩ | rfl | rfl <;> exact True.intro
  refine ⟨_, s', h3, ?_, honly, hb, h4, by simp [h5], by simp [IsDirty, h5], exH_length _, Or.inl ⟨c, g2⟩, ?_, ?_, ?_⟩
  · intro op ho
    rcases hop op ho with rfl | ⟨p, rfl⟩ | rfl | rfl <;> exact True.intro
  · intro it h
    simp only [exItems', List.mem_cons, List.not_mem_nil, or_false] at h
    rcases h with rfl | rfl
    · exact ⟨exH_length _, Or.inr (Or.inl ⟨_, List.mem_cons_of_mem _ (List.mem_singleton.2 rfl), rfl⟩)⟩
    · exact ⟨exH_length _, Or.inl rfl⟩
  · obtain ⟨out1, ho1, hl1⟩ := fullRun_exists exH 5 exItems'
    exact ⟨_, .more 5 out1 3 .none ho1, by simp [hl1]⟩
  · rintro r hr he
    obtain ⟨o1, o2, o3⟩ := only_ingest exH_length h3 honly
    have hg := (hi.inv.cons r (by simp [h5])).1 hr
    have hn : ∀ i, (exH [2], i) ∉ s'.db.domainCerts := by
      intro i hl
      obtain ⟨items, k1, it, k2, _, n, k3, k4⟩ := o2 _ _ hl
      rcases hop _ k1 with e | ⟨p, e⟩ | e | e
      · cases e
        simp only [exItems, List.mem_cons, List.not_mem_nil, or_false] at k2
        rcases k2 with rfl | rfl
        · cases List.mem_singleton.1 k3
          exact absurd k4 (by decide +kernel)
        · cases k3
      · cases e
      · cases e
      · cases e
    obtain ⟨⟨⟨ids, _, i2, i3⟩, ids', _, j2, j3⟩, hne⟩ := hg
    rw [he] at i2 j2
    have e1 : ids = [] := List.eq_nil_iff_forall_not_mem.2 fun i hi => by
      obtain ⟨c, hc, _⟩ := (i2 i).1 hi
      obtain ⟨x, hx⟩ := closure_link hc
      exact hn x hx
    have e2 : ids' = [] := List.eq_nil_iff_forall_not_mem.2 fun i hi => by
      obtain ⟨c, hc, _⟩ := (j2 i).1 hi
      obtain ⟨x, hx⟩ := closure_link hc
      rw [o3] at hx
      cases hx
    rw [if_pos e1] at i3
    rw [if_pos e2] at j3
    rcases hne with h | h
    · exact h i3
    · exact h j3

end Fpki.IngestCmd
