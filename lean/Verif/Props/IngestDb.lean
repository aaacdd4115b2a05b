import Verif.Model.IngestDb
import Verif.Props.DbHist
import Mathlib.Tactic.Tauto
import Mathlib.Data.List.Induction

/-!
# C118: ingesting certificates into the DB
-/
namespace Fpki.IngestDb
open Fpki.Db (DB insertIgnore replaceInto Keys KeyUnique)
open Fpki.Batch (DirtyDomain lruContains lruAdd)

/-! ## Extraction -/

theorem mem_lruAdd {size : Nat} {c : List Bytes} {d x : Bytes} (h : x ∈ lruAdd size c d) : x = d ∨ x ∈ c := by
  unfold lruAdd at h
  rcases List.mem_cons.1 (List.mem_of_mem_take h) with h | h
  · exact Or.inl h
  · exact Or.inr (List.mem_of_mem_erase h)

/-- What is sent is real, and every domain looked at is sent. -/
theorem extract_spec {H : Bytes → Bytes} {size : Nat} {cache : List Bytes} {looked : List (Bytes × Bytes)} {out : List DirtyDomain} (h : Extract H size cache looked out) :
    (∀ d ∈ out, d.domainID = H d.name ∧ (d.certID, d.name) ∈ looked) ∧ (∀ x ∈ cache, ∃ d ∈ out, d.domainID = x) ∧ ∀ p ∈ looked, ∃ d ∈ out, d.domainID = H p.2 := by
  induction h with
  | start => simp
  | skip c n _ hin ih =>
    obtain ⟨h1, h2, h3⟩ := ih
    refine ⟨fun d hd => ⟨(h1 d hd).1, List.mem_append_left _ (h1 d hd).2⟩, h2, fun p hp => ?_⟩
    rcases List.mem_append.1 hp with hp | hp
    · exact h3 p hp
    · cases List.mem_singleton.1 hp
      exact h2 _ (List.contains_iff_mem.1 hin)
  | emit c n _ hin ih =>
    obtain ⟨h1, h2, h3⟩ := ih
    refine ⟨fun d hd => ?_, fun x hx => ?_, fun p hp => ?_⟩
    · rcases List.mem_append.1 hd with hd | hd
      · exact ⟨(h1 d hd).1, List.mem_append_left _ (h1 d hd).2⟩
      · cases List.mem_singleton.1 hd
        exact ⟨rfl, by simp⟩
    · obtain ⟨d, hd, e⟩ := h2 x hx
      exact ⟨d, List.mem_append_left _ hd, e⟩
    · rcases List.mem_append.1 hp with hp | hp
      · obtain ⟨d, hd, e⟩ := h3 p hp
        exact ⟨d, List.mem_append_left _ hd, e⟩
      · cases List.mem_singleton.1 hp
        exact ⟨_, List.mem_append_right _ (List.mem_singleton.2 rfl), rfl⟩
  | add d _ hd ih =>
    obtain ⟨h1, h2, h3⟩ := ih
    refine ⟨h1, fun x hx => ?_, h3⟩
    rcases mem_lruAdd hx with rfl | hx
    · exact ⟨d, hd, rfl⟩
    · exact h2 x hx

/-! ## Interleavings -/

theorem merge_mem {ls : List (List α)} {out : List α} (h : Merge ls out) (x : α) : x ∈ out ↔ ∃ l ∈ ls, x ∈ l := by
  induction h with
  | done h =>
    constructor
    · intro h; cases h
    · rintro ⟨l, hl, hx⟩
      rw [h l hl] at hx
      cases hx
  | @step ls out i y ys hi _ ih =>
    have hlt := (List.getElem?_eq_some_iff.1 hi).1
    rw [List.mem_cons, ih]
    constructor
    · rintro (rfl | ⟨l, hl, hx⟩)
      · exact ⟨_, List.mem_of_getElem? hi, List.mem_cons_self⟩
      · rcases List.mem_or_eq_of_mem_set hl with hl | rfl
        · exact ⟨l, hl, hx⟩
        · exact ⟨_, List.mem_of_getElem? hi, List.mem_cons_of_mem _ hx⟩
    · rintro ⟨l, hl, hx⟩
      obtain ⟨j, hj⟩ := List.getElem?_of_mem hl
      by_cases hij : i = j
      · subst hij
        rw [hi] at hj
        cases hj
        rcases List.mem_cons.1 hx with rfl | hx
        · exact Or.inl rfl
        · exact Or.inr ⟨ys, List.mem_of_getElem? (i := i) (by rw [List.getElem?_set_self hlt]), hx⟩
      · exact Or.inr ⟨l, List.mem_of_getElem? (i := j) (by rw [List.getElem?_set_ne hij]; exact hj), hx⟩

/-- If in every worker's sequence some `y` with `R x y` precedes `x`, then also in every prefix of the interleaving. -/
theorem merge_before {R : α → α → Prop} {ls : List (List α)} {out : List α} (h : Merge ls out) : ∀ (ex : List α),
    (∀ l ∈ ls, ∀ p x q, l = p ++ x :: q → (∃ z, R x z) → ∃ y, R x y ∧ (y ∈ ex ∨ y ∈ p)) →
    ∀ (k : Nat) (x : α), x ∈ out.take k → (∃ z, R x z) → ∃ y, R x y ∧ (y ∈ ex ∨ y ∈ out.take k) := by
  induction h with
  | done h => intro ex _ k x hx; simp at hx
  | @step ls out i y ys hi _ ih =>
    intro ex hp k x hx hz
    cases k with
    | zero => simp at hx
    | succ k =>
      rw [List.take_succ_cons] at hx ⊢
      rcases List.mem_cons.1 hx with rfl | hx
      · obtain ⟨y', h1, h2 | h2⟩ := hp _ (List.mem_of_getElem? hi) [] x ys rfl hz
        · exact ⟨y', h1, Or.inl h2⟩
        · cases h2
      · obtain ⟨y', h1, h2⟩ := ih (ex ++ [y]) (by
          intro l hl p x q e hz
          rcases List.mem_or_eq_of_mem_set hl with hl | rfl
          · obtain ⟨y', h1, h2 | h2⟩ := hp l hl p x q e hz
            · exact ⟨y', h1, Or.inl (List.mem_append_left _ h2)⟩
            · exact ⟨y', h1, Or.inr h2⟩
          · obtain ⟨y', h1, h2 | h2⟩ := hp _ (List.mem_of_getElem? hi) (y :: p) x q (by rw [e]; rfl) hz
            · exact ⟨y', h1, Or.inl (List.mem_append_left _ h2)⟩
            · rcases List.mem_cons.1 h2 with rfl | h2
              · exact ⟨y', h1, Or.inl (by simp)⟩
              · exact ⟨y', h1, Or.inr h2⟩) k x hx hz
        refine ⟨y', h1, ?_⟩
        rcases h2 with h2 | h2
        · rcases List.mem_append.1 h2 with h2 | h2
          · exact Or.inl h2
          · cases List.mem_singleton.1 h2
            exact Or.inr List.mem_cons_self
        · exact Or.inr (List.mem_cons_of_mem _ h2)

/-! ## The effect of statements -/

/-- Rows of the statements. -/
def certRowsOf (l : List Stmt) (r : Db.Cert) : Prop := ∃ b, Stmt.certs b ∈ l ∧ ∃ c ∈ b, c.row = r
def dirtyOf (l : List Stmt) (d : DirtyDomain) : Prop := ∃ b, Stmt.dirty b ∈ l ∧ d ∈ b
def domainOf (l : List Stmt) (d : DirtyDomain) : Prop := ∃ b, Stmt.domains b ∈ l ∧ d ∈ b
def linkOf (l : List Stmt) (d : DirtyDomain) : Prop := ∃ b, Stmt.links b ∈ l ∧ d ∈ b

/-- What statements do to the tables. -/
structure Effect (l : List Stmt) (db db' : DB) : Prop where
  certsKeep : ∀ r ∈ db.certs, r ∈ db'.certs
  certsHas : ∀ r, certRowsOf l r → ∃ x ∈ db'.certs, x.id = r.id
  certsNew : ∀ r ∈ db'.certs, r ∈ db.certs ∨ (certRowsOf l r ∧ ∀ y ∈ db.certs, y.id ≠ r.id)
  domainsKeep : ∀ r ∈ db.domains, r ∈ db'.domains
  domainsHas : ∀ d, domainOf l d → ∃ x ∈ db'.domains, x.1 = d.domainID
  domainsNew : ∀ r ∈ db'.domains, r ∈ db.domains ∨ (∃ d, domainOf l d ∧ r = (d.domainID, d.name)) ∧ ∀ y ∈ db.domains, y.1 ≠ r.1
  links : ∀ r, r ∈ db'.domainCerts ↔ r ∈ db.domainCerts ∨ ∃ d, linkOf l d ∧ r = (d.domainID, d.certID)
  dirty : ∀ x b, (x, b) ∈ db'.dirty ↔ ((∃ d, dirtyOf l d ∧ d.domainID = x) ∧ b = false) ∨ ((∀ d, dirtyOf l d → d.domainID ≠ x) ∧ (x, b) ∈ db.dirty)
  policies : db'.policies = db.policies
  domainPolicies : db'.domainPolicies = db.domainPolicies
  payloads : db'.payloads = db.payloads

theorem insertIgnore_keep {κ : Type} [BEq κ] (key : α → κ) (rows t : List α) {x : α} (h : x ∈ t) : x ∈ insertIgnore key t rows := by
  obtain ⟨new, e, _⟩ := Db.insertIgnore_prefix key rows t
  rw [e]
  exact List.mem_append_left _ h

theorem mem_dirty {t : List (Bytes × Bool)} {b : List DirtyDomain} (x : Bytes) (v : Bool) :
    (x, v) ∈ replaceInto Prod.fst t (b.map fun d => (d.domainID, false)) ↔ ((∃ d ∈ b, d.domainID = x) ∧ v = false) ∨ ((∀ d ∈ b, d.domainID ≠ x) ∧ (x, v) ∈ t) := by
  rw [Db.mem_replaceInto_iff]
  · simp only [List.mem_map, Prod.mk.injEq]
    constructor
    · rintro (⟨d, h1, h2, h3⟩ | ⟨h1, h2⟩)
      · exact Or.inl ⟨⟨d, h1, h2⟩, h3.symm⟩
      · exact Or.inr ⟨fun d hd => h2 _ ⟨d, hd, rfl⟩, h1⟩
    · rintro (⟨⟨d, h1, h2⟩, h3⟩ | ⟨h1, h2⟩)
      · exact Or.inl ⟨d, h1, h2, h3.symm⟩
      · refine Or.inr ⟨h2, ?_⟩
        rintro _ ⟨d, hd, rfl⟩
        exact h1 d hd
  · intro a ha b hb e
    obtain ⟨d, _, rfl⟩ := List.mem_map.1 ha
    obtain ⟨d', _, rfl⟩ := List.mem_map.1 hb
    have : d.domainID = d'.domainID := e
    rw [this]

theorem mem_links {t : List (Bytes × Bytes)} {b : List DirtyDomain} (x : Bytes × Bytes) :
    x ∈ insertIgnore id t (b.map fun d => (d.domainID, d.certID)) ↔ x ∈ t ∨ ∃ d ∈ b, x = (d.domainID, d.certID) := by
  constructor
  · intro h
    rcases Db.mem_insertIgnore id _ _ x h with h | ⟨h, _⟩
    · exact Or.inl h
    · obtain ⟨d, hd, rfl⟩ := List.mem_map.1 h
      exact Or.inr ⟨d, hd, rfl⟩
  · rintro (h | ⟨d, hd, rfl⟩)
    · exact insertIgnore_keep id _ _ h
    · obtain ⟨y, h1, h2⟩ := Db.insertIgnore_has id _ t _ (List.mem_map_of_mem (f := fun d : DirtyDomain => (d.domainID, d.certID)) hd)
      have : y = (d.domainID, d.certID) := h2
      rw [← this]
      exact h1

theorem effect (db : DB) : ∀ l : List Stmt, Effect l db (execAll l db) := by
  intro l
  induction l using List.reverseRecOn with
  | nil =>
    have e : execAll [] db = db := rfl
    rw [e]
    constructor <;> simp [certRowsOf, dirtyOf, domainOf, linkOf]
    all_goals tauto
  | append_singleton l s ih =>
    have e : execAll (l ++ [s]) db = exec (execAll l db) s := by simp [execAll]
    rw [e]
    generalize execAll l db = db' at ih
    have app : ∀ t : Stmt, t ∈ l ++ [s] ↔ t ∈ l ∨ t = s := by simp
    cases s with
    | certs b =>
      have c1 : ∀ r, certRowsOf (l ++ [.certs b]) r ↔ certRowsOf l r ∨ ∃ c ∈ b, c.row = r := by
        intro r
        simp only [certRowsOf, app, Stmt.certs.injEq]
        constructor
        · rintro ⟨b', h | rfl, h'⟩
          · exact Or.inl ⟨b', h, h'⟩
          · exact Or.inr h'
        · rintro (⟨b', h, h'⟩ | h')
          · exact ⟨b', Or.inl h, h'⟩
          · exact ⟨b, Or.inr rfl, h'⟩
      have c2 : ∀ d, domainOf (l ++ [.certs b]) d ↔ domainOf l d := by simp [domainOf]
      have c3 : ∀ d, linkOf (l ++ [.certs b]) d ↔ linkOf l d := by simp [linkOf]
      have c4 : ∀ d, dirtyOf (l ++ [.certs b]) d ↔ dirtyOf l d := by simp [dirtyOf]
      refine ⟨fun r hr => insertIgnore_keep _ _ _ (ih.certsKeep r hr), fun r hr => ?_, fun r hr => ?_, ih.domainsKeep, fun d hd => ih.domainsHas d ((c2 d).1 hd), ?_, ?_, ?_,
        ih.policies, ih.domainPolicies, ih.payloads⟩
      · rcases (c1 r).1 hr with h | ⟨c, hc, rfl⟩
        · obtain ⟨x, h1, h2⟩ := ih.certsHas r h
          exact ⟨x, insertIgnore_keep _ _ _ h1, h2⟩
        · exact Db.insertIgnore_has _ _ _ _ (List.mem_map_of_mem hc)
      · rcases Db.mem_insertIgnore _ _ _ _ hr with h | ⟨h, h'⟩
        · rcases ih.certsNew r h with h | ⟨h, h'⟩
          · exact Or.inl h
          · exact Or.inr ⟨(c1 r).2 (Or.inl h), h'⟩
        · obtain ⟨c, hc, rfl⟩ := List.mem_map.1 h
          exact Or.inr ⟨(c1 _).2 (Or.inr ⟨c, hc, rfl⟩), fun y hy => h' y (ih.certsKeep y hy)⟩
      · simp only [c2]; exact ih.domainsNew
      · simp only [c3]; exact ih.links
      · simp only [c4]; exact ih.dirty
    | dirty b =>
      have c1 : ∀ r, certRowsOf (l ++ [.dirty b]) r ↔ certRowsOf l r := by simp [certRowsOf]
      have c2 : ∀ d, domainOf (l ++ [.dirty b]) d ↔ domainOf l d := by simp [domainOf]
      have c3 : ∀ d, linkOf (l ++ [.dirty b]) d ↔ linkOf l d := by simp [linkOf]
      have c4 : ∀ d, dirtyOf (l ++ [.dirty b]) d ↔ dirtyOf l d ∨ d ∈ b := by
        intro r
        simp only [dirtyOf, app, Stmt.dirty.injEq]
        constructor
        · rintro ⟨b', h | rfl, h'⟩
          · exact Or.inl ⟨b', h, h'⟩
          · exact Or.inr h'
        · rintro (⟨b', h, h'⟩ | h')
          · exact ⟨b', Or.inl h, h'⟩
          · exact ⟨b, Or.inr rfl, h'⟩
      refine ⟨ih.certsKeep, fun r hr => ih.certsHas r ((c1 r).1 hr), ?_, ih.domainsKeep, fun d hd => ih.domainsHas d ((c2 d).1 hd), ?_, ?_, ?_, ih.policies, ih.domainPolicies,
        ih.payloads⟩
      · simp only [c1]; exact ih.certsNew
      · simp only [c2]; exact ih.domainsNew
      · simp only [c3]; exact ih.links
      · intro x v
        show (x, v) ∈ replaceInto Prod.fst db'.dirty _ ↔ _
        rw [mem_dirty, ih.dirty]
        simp only [c4]
        constructor
        · rintro (⟨⟨d, h1, h2⟩, h3⟩ | ⟨h1, ⟨⟨d, h2, h3⟩, h4⟩ | ⟨h2, h3⟩⟩)
          · exact Or.inl ⟨⟨d, Or.inr h1, h2⟩, h3⟩
          · exact Or.inl ⟨⟨d, Or.inl h2, h3⟩, h4⟩
          · exact Or.inr ⟨fun d hd => hd.elim (h2 d) (h1 d), h3⟩
        · rintro (⟨⟨d, h1 | h1, h2⟩, h3⟩ | ⟨h1, h2⟩)
          · by_cases hb : ∃ d ∈ b, d.domainID = x
            · exact Or.inl ⟨hb, h3⟩
            · exact Or.inr ⟨fun d hd e => hb ⟨d, hd, e⟩, Or.inl ⟨⟨d, h1, h2⟩, h3⟩⟩
          · exact Or.inl ⟨⟨d, h1, h2⟩, h3⟩
          · exact Or.inr ⟨fun d hd => h1 d (Or.inr hd), Or.inr ⟨fun d hd => h1 d (Or.inl hd), h2⟩⟩
    | domains b =>
      have c1 : ∀ r, certRowsOf (l ++ [.domains b]) r ↔ certRowsOf l r := by simp [certRowsOf]
      have c2 : ∀ d, domainOf (l ++ [.domains b]) d ↔ domainOf l d ∨ d ∈ b := by
        intro r
        simp only [domainOf, app, Stmt.domains.injEq]
        constructor
        · rintro ⟨b', h | rfl, h'⟩
          · exact Or.inl ⟨b', h, h'⟩
          · exact Or.inr h'
        · rintro (⟨b', h, h'⟩ | h')
          · exact ⟨b', Or.inl h, h'⟩
          · exact ⟨b, Or.inr rfl, h'⟩
      have c3 : ∀ d, linkOf (l ++ [.domains b]) d ↔ linkOf l d := by simp [linkOf]
      have c4 : ∀ d, dirtyOf (l ++ [.domains b]) d ↔ dirtyOf l d := by simp [dirtyOf]
      refine ⟨ih.certsKeep, fun r hr => ih.certsHas r ((c1 r).1 hr), ?_, fun r hr => insertIgnore_keep _ _ _ (ih.domainsKeep r hr), fun d hd => ?_, fun r hr => ?_, ?_, ?_, ih.policies,
        ih.domainPolicies, ih.payloads⟩
      · simp only [c1]; exact ih.certsNew
      · rcases (c2 d).1 hd with h | h
        · obtain ⟨x, h1, h2⟩ := ih.domainsHas d h
          exact ⟨x, insertIgnore_keep _ _ _ h1, h2⟩
        · exact Db.insertIgnore_has Prod.fst _ _ _ (List.mem_map_of_mem (f := fun d : DirtyDomain => (d.domainID, d.name)) h)
      · rcases Db.mem_insertIgnore _ _ _ _ hr with h | ⟨h, h'⟩
        · rcases ih.domainsNew r h with h | ⟨⟨d, h, e⟩, h'⟩
          · exact Or.inl h
          · exact Or.inr ⟨⟨d, (c2 d).2 (Or.inl h), e⟩, h'⟩
        · obtain ⟨d, hd, rfl⟩ := List.mem_map.1 h
          exact Or.inr ⟨⟨d, (c2 _).2 (Or.inr hd), rfl⟩, fun y hy => h' y (ih.domainsKeep y hy)⟩
      · simp only [c3]; exact ih.links
      · simp only [c4]; exact ih.dirty
    | links b =>
      have c1 : ∀ r, certRowsOf (l ++ [.links b]) r ↔ certRowsOf l r := by simp [certRowsOf]
      have c2 : ∀ d, domainOf (l ++ [.links b]) d ↔ domainOf l d := by simp [domainOf]
      have c3 : ∀ d, linkOf (l ++ [.links b]) d ↔ linkOf l d ∨ d ∈ b := by
        intro r
        simp only [linkOf, app, Stmt.links.injEq]
        constructor
        · rintro ⟨b', h | rfl, h'⟩
          · exact Or.inl ⟨b', h, h'⟩
          · exact Or.inr h'
        · rintro (⟨b', h, h'⟩ | h')
          · exact ⟨b', Or.inl h, h'⟩
          · exact ⟨b, Or.inr rfl, h'⟩
      have c4 : ∀ d, dirtyOf (l ++ [.links b]) d ↔ dirtyOf l d := by simp [dirtyOf]
      refine ⟨ih.certsKeep, fun r hr => ih.certsHas r ((c1 r).1 hr), ?_, ih.domainsKeep, fun d hd => ih.domainsHas d ((c2 d).1 hd), ?_, ?_, ?_, ih.policies, ih.domainPolicies,
        ih.payloads⟩
      · simp only [c1]; exact ih.certsNew
      · simp only [c2]; exact ih.domainsNew
      · intro r
        show r ∈ insertIgnore id db'.domainCerts _ ↔ _
        rw [mem_links, ih.links]
        simp only [c3]
        constructor
        · rintro ((h | ⟨d, h, e⟩) | ⟨d, h, e⟩)
          · exact Or.inl h
          · exact Or.inr ⟨d, Or.inl h, e⟩
          · exact Or.inr ⟨d, Or.inr h, e⟩
        · rintro (h | ⟨d, h | h, e⟩)
          · exact Or.inl (Or.inl h)
          · exact Or.inl (Or.inr ⟨d, h, e⟩)
          · exact Or.inr ⟨d, h, e⟩
      · simp only [c4]; exact ih.dirty


/-! ## Runs -/

theorem domainThread_before {b : List DirtyDomain} : ∀ (bs : List (List DirtyDomain)) (p : List Stmt) (q : List Stmt),
    (domainThread bs = p ++ .links b :: q → .domains b ∈ p) ∧ (domainThread bs = p ++ .domains b :: q → .dirty b ∈ p)
  | [], p, q => by
    have e : domainThread [] = [] := rfl
    rw [e]
    constructor <;> intro h <;> cases p <;> cases h
  | b0 :: bs, p, q => by
    have e : domainThread (b0 :: bs) = .dirty b0 :: .domains b0 :: .links b0 :: domainThread bs := rfl
    rw [e]
    match p with
    | [] => constructor <;> intro h <;> simp at h
    | [x] =>
      constructor <;> intro h <;> simp at h
      obtain ⟨h1, h2, _⟩ := h
      rw [← h1, h2]
      exact List.mem_singleton.2 rfl
    | [x, y] =>
      constructor <;> intro h <;> simp at h
      obtain ⟨h1, h2, h3, _⟩ := h
      rw [← h2, h3]
      simp
    | x :: y :: z :: p =>
      obtain ⟨i1, i2⟩ := domainThread_before (b := b) bs p q
      constructor <;> intro h <;> simp only [List.cons_append, List.cons.injEq] at h
      · exact List.mem_cons_of_mem _ (List.mem_cons_of_mem _ (List.mem_cons_of_mem _ (i1 h.2.2.2)))
      · exact List.mem_cons_of_mem _ (List.mem_cons_of_mem _ (List.mem_cons_of_mem _ (i2 h.2.2.2)))

/-- What the statements of a run contain: `ds` is what the extractors sent. -/
structure Facts (H : Bytes → Bytes) (items : List Item) (out : List Stmt) (ds : List DirtyDomain) : Prop where
  sound : ∀ d ∈ ds, d.domainID = H d.name ∧ ∃ it ∈ items, it.row.id = d.certID ∧ d.name ∈ it.names
  complete : ∀ it ∈ items, ∀ n ∈ it.names, ∃ d ∈ ds, d.domainID = H n
  certs : ∀ r, certRowsOf out r ↔ ∃ it ∈ items, it.row = r
  dirty : ∀ d, dirtyOf out d ↔ d ∈ ds
  domains : ∀ d, domainOf out d ↔ d ∈ ds
  links : ∀ d, linkOf out d ↔ d ∈ ds
  linksAfter : ∀ k d, linkOf (out.take k) d → domainOf (out.take k) d
  domainsAfter : ∀ k d, domainOf (out.take k) d → dirtyOf (out.take k) d

theorem mem_pairs {items : List Item} {c n : Bytes} : (c, n) ∈ pairs items ↔ ∃ it ∈ items, it.row.id = c ∧ n ∈ it.names := by
  unfold pairs
  simp only [List.mem_flatMap, List.mem_map, Prod.mk.injEq]
  constructor
  · rintro ⟨it, h1, n', h2, h3, rfl⟩
    exact ⟨it, h1, h3, h2⟩
  · rintro ⟨it, h1, h2, h3⟩
    exact ⟨it, h1, n, h3, h2, rfl⟩

theorem mem_flat2 {w : List (List (List α))} {l : List α} (hp : w.flatten.flatten.Perm l) (x : α) : (∃ bs ∈ w, ∃ b ∈ bs, x ∈ b) ↔ x ∈ l := by
  rw [← hp.mem_iff]
  simp only [List.mem_flatten]
  constructor
  · rintro ⟨bs, h1, b, h2, h3⟩
    exact ⟨b, ⟨bs, h1, h2⟩, h3⟩
  · rintro ⟨b, ⟨bs, h1, h2⟩, h3⟩
    exact ⟨bs, h1, b, h2, h3⟩

theorem facts {H : Bytes → Bytes} {size : Nat} {items : List Item} {out : List Stmt} (h : FullRun H size items out) : ∃ ds, Facts H items out ds := by
  obtain ⟨cache, looked, ds, cw, dw, he, hl, hc, hd, hm⟩ := h
  obtain ⟨e1, _, e3⟩ := extract_spec he
  have hmem : ∀ s, s ∈ out ↔ (∃ bs ∈ cw, s ∈ certThread bs) ∨ ∃ bs ∈ dw, s ∈ domainThread bs := by
    intro s
    rw [merge_mem hm]
    simp only [List.mem_append, List.mem_map]
    constructor
    · rintro ⟨l, ⟨bs, h1, rfl⟩ | ⟨bs, h1, rfl⟩, h2⟩
      · exact Or.inl ⟨bs, h1, h2⟩
      · exact Or.inr ⟨bs, h1, h2⟩
    · rintro (⟨bs, h1, h2⟩ | ⟨bs, h1, h2⟩)
      · exact ⟨_, Or.inl ⟨bs, h1, rfl⟩, h2⟩
      · exact ⟨_, Or.inr ⟨bs, h1, rfl⟩, h2⟩
  have m1 : ∀ b, Stmt.certs b ∈ out ↔ ∃ bs ∈ cw, b ∈ bs := by intro b; rw [hmem]; simp [certThread, domainThread]
  have m2 : ∀ b, Stmt.dirty b ∈ out ↔ ∃ bs ∈ dw, b ∈ bs := by intro b; rw [hmem]; simp [certThread, domainThread]
  have m3 : ∀ b, Stmt.domains b ∈ out ↔ ∃ bs ∈ dw, b ∈ bs := by intro b; rw [hmem]; simp [certThread, domainThread]
  have m4 : ∀ b, Stmt.links b ∈ out ↔ ∃ bs ∈ dw, b ∈ bs := by intro b; rw [hmem]; simp [certThread, domainThread]
  have bef : ∀ (R : Stmt → Stmt → Prop), (∀ bs p x q, domainThread bs = p ++ x :: q → (∃ z, R x z) → ∃ y, R x y ∧ y ∈ p) → (∀ b z, ¬ R (.certs b) z) →
      ∀ k x, x ∈ out.take k → (∃ z, R x z) → ∃ y, R x y ∧ y ∈ out.take k := by
    intro R h1 h2 k x hx hz
    obtain ⟨y, h3, h4 | h4⟩ := merge_before (R := R) hm [] (by
      intro l hl p x q e hz
      rcases List.mem_append.1 hl with hl | hl
      · obtain ⟨bs, hb, rfl⟩ := List.mem_map.1 hl
        have hx : x ∈ certThread bs := by rw [e]; simp
        obtain ⟨b, _, rfl⟩ := List.mem_map.1 hx
        obtain ⟨z, hz⟩ := hz
        exact absurd hz (h2 b z)
      · obtain ⟨bs, hb, rfl⟩ := List.mem_map.1 hl
        obtain ⟨y, h3, h4⟩ := h1 bs p x q e hz
        exact ⟨y, h3, Or.inr h4⟩) k x hx hz
    · cases h4
    · exact ⟨y, h3, h4⟩
  refine ⟨ds, ⟨fun d hd => ⟨(e1 d hd).1, mem_pairs.1 (hl.mem_iff.1 (e1 d hd).2)⟩, fun it hi n hn => ?_, fun r => ?_, fun d => ?_, fun d => ?_, fun d => ?_, ?_, ?_⟩⟩
  · exact e3 (it.row.id, n) (hl.mem_iff.2 (mem_pairs.2 ⟨it, hi, rfl, hn⟩))
  · unfold certRowsOf
    simp only [m1, ← mem_flat2 hc]
    constructor
    · rintro ⟨b, ⟨bs, h1, h2⟩, c, h3, h4⟩
      exact ⟨c, ⟨bs, h1, b, h2, h3⟩, h4⟩
    · rintro ⟨c, ⟨bs, h1, b, h2, h3⟩, h4⟩
      exact ⟨b, ⟨bs, h1, h2⟩, c, h3, h4⟩
  · unfold dirtyOf
    simp only [m2, ← mem_flat2 hd]
    constructor
    · rintro ⟨b, ⟨bs, h1, h2⟩, h3⟩
      exact ⟨bs, h1, b, h2, h3⟩
    · rintro ⟨bs, h1, b, h2, h3⟩
      exact ⟨b, ⟨bs, h1, h2⟩, h3⟩
  · unfold domainOf
    simp only [m3, ← mem_flat2 hd]
    constructor
    · rintro ⟨b, ⟨bs, h1, h2⟩, h3⟩
      exact ⟨bs, h1, b, h2, h3⟩
    · rintro ⟨bs, h1, b, h2, h3⟩
      exact ⟨b, ⟨bs, h1, h2⟩, h3⟩
  · unfold linkOf
    simp only [m4, ← mem_flat2 hd]
    constructor
    · rintro ⟨b, ⟨bs, h1, h2⟩, h3⟩
      exact ⟨bs, h1, b, h2, h3⟩
    · rintro ⟨bs, h1, b, h2, h3⟩
      exact ⟨b, ⟨bs, h1, h2⟩, h3⟩
  · rintro k d ⟨b, hb, hd⟩
    obtain ⟨y, ⟨b', e, rfl⟩, hy⟩ := bef (fun x y => ∃ b, x = .links b ∧ y = .domains b) (by
      rintro bs p x q e ⟨_, b, rfl, rfl⟩
      exact ⟨_, ⟨b, rfl, rfl⟩, (domainThread_before bs p q).1 e⟩) (by rintro b z ⟨_, h, _⟩; cases h) k _ hb ⟨_, b, rfl, rfl⟩
    cases e
    exact ⟨b, hy, hd⟩
  · rintro k d ⟨b, hb, hd⟩
    obtain ⟨y, ⟨b', e, rfl⟩, hy⟩ := bef (fun x y => ∃ b, x = .domains b ∧ y = .dirty b) (by
      rintro bs p x q e ⟨_, b, rfl, rfl⟩
      exact ⟨_, ⟨b, rfl, rfl⟩, (domainThread_before bs p q).2 e⟩) (by rintro b z ⟨_, h, _⟩; cases h) k _ hb ⟨_, b, rfl, rfl⟩
    cases e
    exact ⟨b, hy, hd⟩

/-! ## C118 -/

/-- Some certificate of the batch has the name with this hash, and its ID is `c`. -/
def Named (H : Bytes → Bytes) (items : List Item) (dom c : Bytes) : Prop := ∃ it ∈ items, it.row.id = c ∧ ∃ n ∈ it.names, H n = dom

/-- **C118.** After the pipeline has run to its end, on any DB, every certificate of the batch is stored, and every name of every certificate is in the table of domains, waits in the
dirty table for its payload to be recomputed, and has a link to a certificate of the batch with this name. -/
theorem C118_complete {H : Bytes → Bytes} {size : Nat} {items : List Item} {out : List Stmt} (h : FullRun H size items out) (db : DB) :
    ∀ it ∈ items, (∃ r ∈ (execAll out db).certs, r.id = it.row.id) ∧ ∀ n ∈ it.names, (∃ x ∈ (execAll out db).domains, x.1 = H n) ∧ (H n, false) ∈ (execAll out db).dirty ∧
      ∃ c, Named H items (H n) c ∧ (H n, c) ∈ (execAll out db).domainCerts := by
  obtain ⟨ds, f⟩ := facts h
  have e := effect db out
  intro it hi
  refine ⟨e.certsHas _ ((f.certs _).2 ⟨it, hi, rfl⟩), fun n hn => ?_⟩
  obtain ⟨d, hd, he⟩ := f.complete it hi n hn
  obtain ⟨h1, it', h2, h3, h4⟩ := f.sound d hd
  refine ⟨?_, (e.dirty _ _).2 (Or.inl ⟨⟨d, (f.dirty d).2 hd, he⟩, rfl⟩), d.certID, ⟨it', h2, h3, d.name, h4, h1 ▸ he⟩, (e.links _).2 (Or.inr ⟨d, (f.links d).2 hd, by rw [he]⟩)⟩
  rw [← he]
  exact e.domainsHas d ((f.domains d).2 hd)

/-- **C118, the part that holds of the links.** The only certificate of the batch with a name is linked to it. (With several, one of them is: `C118_complete`; the others may be missing, see
`C118_links_violated`.) -/
theorem C118_links_partial {H : Bytes → Bytes} {size : Nat} {items : List Item} {out : List Stmt} (h : FullRun H size items out) (db : DB) {c n : Bytes}
    (hn : ∃ it ∈ items, it.row.id = c ∧ n ∈ it.names) (honly : ∀ c', Named H items (H n) c' → c' = c) : (H n, c) ∈ (execAll out db).domainCerts := by
  obtain ⟨it, hi, _, hn⟩ := hn
  obtain ⟨c', h1, h2⟩ := ((C118_complete h db it hi).2 n hn).2.2
  rw [honly c' h1] at h2
  exact h2

/-- What any interruption of the pipeline leaves: all the old rows, new rows of the batch only, and no new link or domain that is not marked as dirty. -/
structure Kept (H : Bytes → Bytes) (items : List Item) (db db' : DB) : Prop where
  oldCerts : ∀ r ∈ db.certs, r ∈ db'.certs
  oldDomains : ∀ r ∈ db.domains, r ∈ db'.domains
  oldLinks : ∀ r ∈ db.domainCerts, r ∈ db'.domainCerts
  oldDirty : ∀ x b, (x, b) ∈ db.dirty → (x, b) ∈ db'.dirty ∨ (x, false) ∈ db'.dirty
  newCerts : ∀ r ∈ db'.certs, r ∈ db.certs ∨ ((∃ it ∈ items, it.row = r) ∧ ∀ y ∈ db.certs, y.id ≠ r.id)
  newDomains : ∀ x name, (x, name) ∈ db'.domains → (x, name) ∈ db.domains ∨
    ((∃ c, Named H items x c) ∧ H name = x ∧ (∀ y ∈ db.domains, y.1 ≠ x) ∧ (x, false) ∈ db'.dirty)
  newLinks : ∀ x c, (x, c) ∈ db'.domainCerts → (x, c) ∈ db.domainCerts ∨ (Named H items x c ∧ (x, false) ∈ db'.dirty ∧ ∃ y ∈ db'.domains, y.1 = x)
  newDirty : ∀ x b, (x, b) ∈ db'.dirty → (x, b) ∈ db.dirty ∨ (b = false ∧ ∃ c, Named H items x c)
  policies : db'.policies = db.policies
  domainPolicies : db'.domainPolicies = db.domainPolicies
  payloads : db'.payloads = db.payloads

/-- **C118, crash.** At every point of a run (and so after a crash, or after an error in any worker) what was in the DB is still there, the new rows come from the batch, and no domain has a
new link without being marked for the recomputation of its payload. -/
theorem C118_crash {H : Bytes → Bytes} {size : Nat} {items : List Item} {out : List Stmt} (h : FullRun H size items out) (db : DB) (k : Nat) :
    Kept H items db (execAll (out.take k) db) := by
  obtain ⟨ds, f⟩ := facts h
  have e := effect db (out.take k)
  have sub : ∀ s, s ∈ out.take k → s ∈ out := fun s hs => List.mem_of_mem_take hs
  have d1 : ∀ d, dirtyOf (out.take k) d → d ∈ ds := fun d ⟨b, hb, hd⟩ => (f.dirty d).1 ⟨b, sub _ hb, hd⟩
  have named : ∀ d ∈ ds, Named H items d.domainID d.certID := fun d hd => by
    obtain ⟨h1, it, h2, h3, h4⟩ := f.sound d hd
    exact ⟨it, h2, h3, d.name, h4, h1.symm⟩
  have mark : ∀ d, dirtyOf (out.take k) d → (d.domainID, false) ∈ (execAll (out.take k) db).dirty := fun d hd => (e.dirty _ _).2 (Or.inl ⟨⟨d, hd, rfl⟩, rfl⟩)
  refine ⟨e.certsKeep, e.domainsKeep, fun r hr => (e.links r).2 (Or.inl hr), fun x b hx => ?_, fun r hr => ?_, fun x name hx => ?_, fun x c hx => ?_, fun x b hx => ?_, e.policies, e.domainPolicies,
    e.payloads⟩
  · by_cases hd : ∃ d, dirtyOf (out.take k) d ∧ d.domainID = x
    · exact Or.inr ((e.dirty _ _).2 (Or.inl ⟨hd, rfl⟩))
    · exact Or.inl ((e.dirty _ _).2 (Or.inr ⟨fun d h1 h2 => hd ⟨d, h1, h2⟩, hx⟩))
  · rcases e.certsNew r hr with h | ⟨⟨b, hb, c, hc, e'⟩, h'⟩
    · exact Or.inl h
    · exact Or.inr ⟨(f.certs r).1 ⟨b, sub _ hb, c, hc, e'⟩, h'⟩
  · rcases e.domainsNew _ hx with h | ⟨⟨d, hd, e'⟩, h'⟩
    · exact Or.inl h
    · cases e'
      have hd' := f.domainsAfter k d hd
      exact Or.inr ⟨⟨_, named d (d1 d hd')⟩, (f.sound d (d1 d hd')).1.symm, h', mark d hd'⟩
  · rcases (e.links _).1 hx with h | ⟨d, hd, e'⟩
    · exact Or.inl h
    · cases e'
      have h2 := f.linksAfter k d hd
      have h3 := f.domainsAfter k d h2
      exact Or.inr ⟨named d (d1 d h3), mark d h3, e.domainsHas d h2⟩
  · rcases (e.dirty _ _).1 hx with ⟨⟨d, hd, rfl⟩, hb⟩ | ⟨_, h⟩
    · exact Or.inr ⟨hb, _, named d (d1 d hd)⟩
    · exact Or.inl h

/-- **C118, exact tables.** If certificates of the batch with the same ID are the same and their names have different hashes, then the certificates, domains and dirty domains do not depend on the
number of workers, the batches, or who is faster: they are the old rows and those of the batch. -/
theorem C118_tables {H : Bytes → Bytes} {size : Nat} {items : List Item} {out : List Stmt} (h : FullRun H size items out) (db : DB)
    (hrow : ∀ a ∈ items, ∀ b ∈ items, a.row.id = b.row.id → a.row = b.row)
    (hinj : ∀ a ∈ items, ∀ b ∈ items, ∀ n ∈ a.names, ∀ m ∈ b.names, H n = H m → n = m) :
    (∀ r, r ∈ (execAll out db).certs ↔ r ∈ db.certs ∨ ((∃ it ∈ items, it.row = r) ∧ ∀ y ∈ db.certs, y.id ≠ r.id)) ∧
    (∀ x name, (x, name) ∈ (execAll out db).domains ↔ (x, name) ∈ db.domains ∨ ((∃ it ∈ items, name ∈ it.names ∧ H name = x) ∧ ∀ y ∈ db.domains, y.1 ≠ x)) ∧
    ∀ x b, (x, b) ∈ (execAll out db).dirty ↔ ((∃ c, Named H items x c) ∧ b = false) ∨ ((∀ c, ¬ Named H items x c) ∧ (x, b) ∈ db.dirty) := by
  obtain ⟨ds, f⟩ := facts h
  have e := effect db out
  have key : ∀ x, (∃ d, dirtyOf out d ∧ d.domainID = x) ↔ ∃ c, Named H items x c := by
    intro x
    constructor
    · rintro ⟨d, hd, rfl⟩
      obtain ⟨h1, it, h2, h3, h4⟩ := f.sound d ((f.dirty d).1 hd)
      exact ⟨_, it, h2, h3, d.name, h4, h1.symm⟩
    · rintro ⟨c, it, h1, h2, n, h3, rfl⟩
      obtain ⟨d, hd, he⟩ := f.complete it h1 n h3
      exact ⟨d, (f.dirty d).2 hd, he⟩
  refine ⟨fun r => ⟨fun hr => ?_, ?_⟩, fun x name => ⟨fun hx => ?_, ?_⟩, fun x b => ?_⟩
  · rcases e.certsNew r hr with h | ⟨h, h'⟩
    · exact Or.inl h
    · exact Or.inr ⟨(f.certs r).1 h, h'⟩
  · rintro (hr | ⟨⟨it, hi, rfl⟩, hr⟩)
    · exact e.certsKeep r hr
    · obtain ⟨x, hx, hid⟩ := e.certsHas _ ((f.certs _).2 ⟨it, hi, rfl⟩)
      rcases e.certsNew x hx with h1 | ⟨h1, _⟩
      · exact absurd hid (hr x h1)
      · obtain ⟨it', hi', rfl⟩ := (f.certs x).1 h1
        rw [hrow it hi it' hi' hid.symm]
        exact hx
  · rcases e.domainsNew _ hx with h | ⟨⟨d, hd, e'⟩, h'⟩
    · exact Or.inl h
    · cases e'
      obtain ⟨h1, it, h2, _, h4⟩ := f.sound d ((f.domains d).1 hd)
      exact Or.inr ⟨⟨it, h2, h4, h1.symm⟩, h'⟩
  · rintro (hx | ⟨⟨it, hi, hn, rfl⟩, hx⟩)
    · exact e.domainsKeep _ hx
    · obtain ⟨d, hd, he⟩ := f.complete it hi name hn
      obtain ⟨y, hy, hye⟩ := e.domainsHas d ((f.domains d).2 hd)
      rcases e.domainsNew y hy with h1 | ⟨⟨d', h1, e'⟩, _⟩
      · exact absurd (hye.trans he) (hx y h1)
      · subst e'
        obtain ⟨g1, it', g2, _, g4⟩ := f.sound d' ((f.domains d').1 h1)
        have e3 : d'.domainID = d.domainID := hye
        have e2 : H d'.name = H name := by rw [← g1, e3, he]
        have e4 := hinj it' g2 it hi d'.name g4 name hn e2
        have : (d'.domainID, d'.name) = (H name, name) := by rw [e4, e3, he]
        rw [← this]
        exact hy
  · rw [e.dirty, key]
    constructor
    · rintro (h | ⟨h1, h2⟩)
      · exact Or.inl h
      · refine Or.inr ⟨fun c hc => ?_, h2⟩
        obtain ⟨d, hd, he⟩ := (key x).2 ⟨c, hc⟩
        exact h1 d hd he
    · rintro (h | ⟨h1, h2⟩)
      · exact Or.inl h
      · refine Or.inr ⟨fun d hd he => ?_, h2⟩
        obtain ⟨c, hc⟩ := (key x).1 ⟨d, hd, he⟩
        exact h1 c hc

/-- **C118, repetition.** After an interrupted run, a complete run of the same batch gives the certificates, domains and dirty domains that it would have given without the interruption, and keeps
every link it would have made. -/
theorem C118_again {H : Bytes → Bytes} {size size' : Nat} {items : List Item} {out out' : List Stmt} (h : FullRun H size items out) (h' : FullRun H size' items out') (db : DB) (k : Nat)
    (hrow : ∀ a ∈ items, ∀ b ∈ items, a.row.id = b.row.id → a.row = b.row)
    (hinj : ∀ a ∈ items, ∀ b ∈ items, ∀ n ∈ a.names, ∀ m ∈ b.names, H n = H m → n = m) :
    (∀ r, r ∈ (execAll out' (execAll (out.take k) db)).certs ↔ r ∈ (execAll out' db).certs) ∧
    (∀ r, r ∈ (execAll out' (execAll (out.take k) db)).domains ↔ r ∈ (execAll out' db).domains) ∧
    (∀ r, r ∈ (execAll out' (execAll (out.take k) db)).dirty ↔ r ∈ (execAll out' db).dirty) ∧
    (∀ r, r ∈ (execAll out' db).domainCerts → r ∈ (execAll out' (execAll (out.take k) db)).domainCerts) ∧
    (execAll out' (execAll (out.take k) db)).payloads = db.payloads := by
  have s := C118_crash h db k
  obtain ⟨a1, a2, a3⟩ := C118_tables h' (execAll (out.take k) db) hrow hinj
  obtain ⟨b1, b2, b3⟩ := C118_tables h' db hrow hinj
  refine ⟨fun r => ?_, fun ⟨x, name⟩ => ?_, fun ⟨x, b⟩ => ?_, fun r hr => ?_, ?_⟩
  · rw [a1, b1]
    constructor
    · rintro (hr | ⟨h1, h2⟩)
      · exact s.newCerts r hr
      · exact Or.inr ⟨h1, fun y hy => h2 y (s.oldCerts y hy)⟩
    · rintro (hr | ⟨⟨it, hi, rfl⟩, h2⟩)
      · exact Or.inl (s.oldCerts r hr)
      · by_cases hx : ∃ y ∈ (execAll (out.take k) db).certs, y.id = it.row.id
        · obtain ⟨y, hy, he⟩ := hx
          rcases s.newCerts y hy with h1 | ⟨⟨it', hi', rfl⟩, _⟩
          · exact absurd he (h2 y h1)
          · rw [hrow it hi it' hi' he.symm]
            exact Or.inl hy
        · exact Or.inr ⟨⟨it, hi, rfl⟩, fun y hy he => hx ⟨y, hy, he⟩⟩
  · rw [a2, b2]
    constructor
    · rintro (hr | ⟨h1, h2⟩)
      · rcases s.newDomains x name hr with h | ⟨⟨c, it, h1, _, n, h3, h4⟩, h5, h6, _⟩
        · exact Or.inl h
        · -- the name stored is that of an item
          obtain ⟨ds, f⟩ := facts h
          rcases (effect db (out.take k)).domainsNew _ hr with g | ⟨⟨d, ⟨b, hb, hd⟩, e'⟩, _⟩
          · exact Or.inl g
          · cases e'
            obtain ⟨g1, it', g2, _, g4⟩ := f.sound d ((f.domains d).1 ⟨b, List.mem_of_mem_take hb, hd⟩)
            exact Or.inr ⟨⟨it', g2, g4, g1.symm⟩, h6⟩
      · exact Or.inr ⟨h1, fun y hy => h2 y (s.oldDomains y hy)⟩
    · rintro (hr | ⟨⟨it, hi, hn, rfl⟩, h2⟩)
      · exact Or.inl (s.oldDomains _ hr)
      · by_cases hx : ∃ y ∈ (execAll (out.take k) db).domains, y.1 = H name
        · obtain ⟨⟨y, m⟩, hy, he⟩ := hx
          dsimp only at he
          subst he
          rcases (effect db (out.take k)).domainsNew _ hy with g | ⟨⟨d, ⟨b, hb, hd⟩, e'⟩, _⟩
          · exact absurd rfl (h2 _ g)
          · obtain ⟨ds, f⟩ := facts h
            obtain ⟨g1, it', g2, _, g4⟩ := f.sound d ((f.domains d).1 ⟨b, List.mem_of_mem_take hb, hd⟩)
            simp only [Prod.mk.injEq] at e'
            have e4 := hinj it' g2 it hi d.name g4 name hn (by rw [← g1, ← e'.1])
            rw [e'.2, e4] at hy
            exact Or.inl hy
        · exact Or.inr ⟨⟨it, hi, hn, rfl⟩, fun y hy he => hx ⟨y, hy, he⟩⟩
  · rw [a3, b3]
    constructor
    · rintro (hr | ⟨h1, h2⟩)
      · exact Or.inl hr
      · rcases s.newDirty x b h2 with g | ⟨_, c, g⟩
        · exact Or.inr ⟨h1, g⟩
        · exact absurd g (h1 c)
    · rintro (hr | ⟨h1, h2⟩)
      · exact Or.inl hr
      · refine Or.inr ⟨h1, ?_⟩
        refine ((effect db (out.take k)).dirty x b).2 (Or.inr ⟨fun d ⟨b', hb, hd⟩ he => ?_, h2⟩)
        obtain ⟨ds, f⟩ := facts h
        obtain ⟨g1, it', g2, g3, g4⟩ := f.sound d ((f.dirty d).1 ⟨b', List.mem_of_mem_take hb, hd⟩)
        exact h1 d.certID ⟨it', g2, g3, d.name, g4, by rw [← g1, he]⟩
  · rcases ((effect db out').links r).1 hr with g | g
    · exact ((effect _ out').links r).2 (Or.inl (s.oldLinks r g))
    · exact ((effect _ out').links r).2 (Or.inr g)
  · rw [(effect _ out').payloads, s.payloads]

theorem exec_keys {db : DB} (hk : Keys db) (s : Stmt) : Keys (exec db s) := by
  cases s with
  | certs b => exact ⟨Db.insertIgnore_nodup Db.Cert.id _ _ hk.certs, hk.policies, hk.dirty⟩
  | dirty b => exact ⟨hk.certs, hk.policies, Db.replaceInto_nodup Prod.fst _ _ hk.dirty⟩
  | domains b => exact ⟨hk.certs, hk.policies, hk.dirty⟩
  | links b => exact ⟨hk.certs, hk.policies, hk.dirty⟩

theorem execAll_keys : ∀ (l : List Stmt) {db : DB}, Keys db → Keys (execAll l db)
  | [], _, hk => hk
  | s :: l, _, hk => execAll_keys l (exec_keys hk s)

/-- **C118, payloads.** Coalescing after a complete run gives each name of the batch a payload row, which lists a certificate of the batch with this name; if only one has it, that one. -/
theorem C118_coalesced {H : Bytes → Bytes} {size : Nat} {items : List Item} {out : List Stmt} (h : FullRun H size items out) {db : DB} (hk : Keys db) (fuel chunk n : Nat)
    (hf : (execAll out db).certs.length < fuel) (hf' : (execAll out db).policies.length < fuel) (hc : 0 < chunk) (hn : (execAll out db).dirty.length < n) :
    ∃ db', Db.recomputeDirty fuel chunk n (execAll out db) = some db' ∧ ∀ it ∈ items, ∀ name ∈ it.names,
      ∃ r ∈ db'.payloads, r.domain = H name ∧ ∃ ids : List Bytes, r.certIds = some ids.flatten ∧ (∃ c ∈ ids, Named H items (H name) c) ∧
        ((∀ c, Named H items (H name) c → c = it.row.id) → it.row.id ∈ ids) := by
  obtain ⟨db', h1, h2, _⟩ := Db.C22_coalesced_payload (execAll out db) (execAll_keys out hk) fuel chunk n hf hf' hc hn
  refine ⟨db', h1, fun it hi name hname => ?_⟩
  obtain ⟨_, g3, c, g4, g5⟩ := (C118_complete h db it hi).2 name hname
  obtain ⟨rc, k3, k4⟩ : ∃ r ∈ (execAll out db).certs, r.id = c := by
    obtain ⟨itc, k1, k2, _⟩ := g4
    rw [← k2]
    exact (C118_complete h db itc k1).1
  have hcl : Db.InClosure (execAll out db).certs (execAll out db).domainCerts (H name) rc := .link rc k3 (by rw [k4]; exact g5)
  obtain ⟨v, _, hv⟩ := Db.aggregate_spec _ (execAll out db).domainCerts (execAll_keys out hk).certs (H name) fuel hf
  obtain ⟨w, _, hw⟩ := Db.aggregate_spec _ (execAll out db).domainPolicies (execAll_keys out hk).policies (H name) fuel hf'
  have hv' := hv
  obtain ⟨ids, _, i2, i3⟩ := hv'
  have hin : c ∈ ids := (i2 c).2 ⟨rc, hcl, k4⟩
  rw [if_neg (List.ne_nil_of_mem hin)] at i3
  refine ⟨⟨H name, v, w⟩, (h2 ⟨H name, v, w⟩ g3).2 ⟨hv, hw, Or.inl (by rw [i3]; simp)⟩, rfl, ids, i3, ⟨c, hin, g4⟩, fun ho => ?_⟩
  rw [← ho c g4]
  exact hin

/-! ### What does not hold -/

/-- A run with one worker of each kind in which the certificate `a` is looked at before `b`; both have the name `n` only. `out` is one of the orders of the statements. -/
theorem run_two (H : Bytes → Bytes) {size : Nat} (hs : 0 < size) {a b : Item} {n : Bytes} (ha : a.names = [n]) (hb : b.names = [n]) (items : List Item) (hp : items.Perm [a, b]) :
    FullRun H size items [.certs [a, b], .dirty [⟨H n, a.row.id, n⟩], .domains [⟨H n, a.row.id, n⟩], .links [⟨H n, a.row.id, n⟩]] := by
  have e1 : Extract H size [] [(a.row.id, n)] [⟨H n, a.row.id, n⟩] := .emit a.row.id n .start rfl
  have e2 : Extract H size (lruAdd size [] (H n)) [(a.row.id, n)] [⟨H n, a.row.id, n⟩] := .add ⟨H n, a.row.id, n⟩ e1 (List.mem_singleton.2 rfl)
  have hl : lruContains (lruAdd size [] (H n)) (H n) = true := by
    obtain ⟨m, rfl⟩ : ∃ m, size = m + 1 := ⟨size - 1, by omega⟩
    simp [lruContains, lruAdd]
  have e3 := Extract.skip b.row.id n e2 hl
  refine ⟨_, _, _, [[[a, b]]], [[[⟨H n, a.row.id, n⟩]]], e3, ?_, by simpa using hp.symm, by simp, ?_⟩
  · have : (pairs items).Perm (pairs [a, b]) := hp.flatMap_right _
    refine List.Perm.trans ?_ this.symm
    simp [pairs, ha, hb]
  · refine .step 0 _ [] rfl (.step 1 _ [.domains _, .links _] rfl (.step 1 _ [.links _] rfl (.step 1 _ [] rfl (.done ?_))))
    simp

theorem run_two_links (H : Bytes → Bytes) {a b : Item} {n : Bytes} (db : DB) (x : Bytes × Bytes) :
    x ∈ (execAll [.certs [a, b], .dirty [⟨H n, a.row.id, n⟩], .domains [⟨H n, a.row.id, n⟩], .links [⟨H n, a.row.id, n⟩]] db).domainCerts ↔
      x ∈ db.domainCerts ∨ x = (H n, a.row.id) := by
  rw [(effect db _).links]
  simp [linkOf]

/-- **C118, violated.** The pipeline does not link every certificate to its names: of two certificates with the same name in a batch, it is the schedule that decides which one is linked, and the
other one is not. -/
theorem C118_links_violated (H : Bytes → Bytes) {size : Nat} (hs : 0 < size) {a b : Item} {n : Bytes} (ha : a.names = [n]) (hb : b.names = [n]) (hne : a.row.id ≠ b.row.id) (db : DB)
    (h1 : (H n, a.row.id) ∉ db.domainCerts) (h2 : (H n, b.row.id) ∉ db.domainCerts) :
    (∃ out, FullRun H size [a, b] out ∧ (H n, a.row.id) ∈ (execAll out db).domainCerts ∧ (H n, b.row.id) ∉ (execAll out db).domainCerts) ∧
    ∃ out, FullRun H size [a, b] out ∧ (H n, a.row.id) ∉ (execAll out db).domainCerts ∧ (H n, b.row.id) ∈ (execAll out db).domainCerts := by
  refine ⟨⟨_, run_two H hs ha hb [a, b] (.refl _), ?_, ?_⟩, ⟨_, run_two H hs hb ha [a, b] (.swap _ _ _), ?_, ?_⟩⟩
  · exact (run_two_links H db _).2 (Or.inr rfl)
  · rw [run_two_links]
    rintro (h | h)
    · exact h2 h
    · exact hne (Prod.mk.inj h).2.symm
  · rw [run_two_links]
    rintro (h | h)
    · exact h1 h
    · exact hne (Prod.mk.inj h).2
  · exact (run_two_links H db _).2 (Or.inr rfl)

/-- **C118, violated.** There are moments at which a new link points to a certificate that is not stored: nothing makes the domain inserters wait for the cert inserters. -/
theorem C118_dangling_violated (H : Bytes → Bytes) (size : Nat) {a : Item} {n : Bytes} (ha : a.names = [n]) (db : DB) (h : ∀ r ∈ db.certs, r.id ≠ a.row.id) :
    ∃ out, FullRun H size [a] out ∧ ∃ k, (H n, a.row.id) ∈ (execAll (out.take k) db).domainCerts ∧ ∀ r ∈ (execAll (out.take k) db).certs, r.id ≠ a.row.id := by
  refine ⟨[.dirty [⟨H n, a.row.id, n⟩], .domains [⟨H n, a.row.id, n⟩], .links [⟨H n, a.row.id, n⟩], .certs [a]],
    ⟨_, _, _, [[[a]]], [[[⟨H n, a.row.id, n⟩]]], .emit a.row.id n .start rfl, by simp [pairs, ha], by simp, by simp, ?_⟩, 3, ?_, ?_⟩
  · refine .step 1 _ [.domains _, .links _] rfl (.step 1 _ [.links _] rfl (.step 1 _ [] rfl (.step 0 _ [] rfl (.done ?_))))
    simp
  · exact ((effect db _).links _).2 (Or.inr ⟨_, ⟨_, by simp; rfl, List.mem_singleton.2 rfl⟩, rfl⟩)
  · exact h

/-! ### The conditions are met -/

def exItem (i : Byte) (names : List Bytes) : Item := ⟨⟨[i], [], 80, []⟩, names⟩

/-- Three certificates, two batches of certificates, two domain inserters that work at the same time; the cache has one entry only, so that one name is sent twice. -/
example : ∃ out, FullRun id 1 [exItem 1 [[7], [8]], exItem 2 [[7]], exItem 3 []] out ∧ out.length = 9 ∧ (∀ a ∈ [exItem 1 [[7], [8]], exItem 2 [[7]], exItem 3 []],
    ∀ b ∈ [exItem 1 [[7], [8]], exItem 2 [[7]], exItem 3 []], a.row.id = b.row.id → a.row = b.row) := by
  have e1 : Extract id 1 [] [([1], [7])] [⟨[7], [1], [7]⟩] := .emit [1] [7] .start rfl
  have e2 : Extract id 1 (lruAdd 1 [] [7]) [([1], [7])] [⟨[7], [1], [7]⟩] := .add ⟨[7], [1], [7]⟩ e1 (List.mem_singleton.2 rfl)
  have e3 : Extract id 1 (lruAdd 1 [] [7]) [([1], [7]), ([1], [8])] [⟨[7], [1], [7]⟩, ⟨[8], [1], [8]⟩] := .emit [1] [8] e2 (by decide)
  have e4 : Extract id 1 (lruAdd 1 (lruAdd 1 [] [7]) [8]) [([1], [7]), ([1], [8])] [⟨[7], [1], [7]⟩, ⟨[8], [1], [8]⟩] := .add ⟨[8], [1], [8]⟩ e3 (by simp)
  have e5 : Extract id 1 (lruAdd 1 (lruAdd 1 [] [7]) [8]) [([1], [7]), ([1], [8]), ([2], [7])] [⟨[7], [1], [7]⟩, ⟨[8], [1], [8]⟩, ⟨[7], [2], [7]⟩] :=
    .emit [2] [7] e4 (by decide)
  refine ⟨_, ⟨_, _, _, [[[exItem 1 [[7], [8]]], [exItem 2 [[7]]]], [[exItem 3 []]]], [[[⟨[7], [1], [7]⟩]], [[⟨[8], [1], [8]⟩, ⟨[7], [2], [7]⟩]]], e5, by decide, by decide, by decide,
    .step 2 _ [.domains _, .links _] rfl (.step 0 _ [.certs _] rfl (.step 3 _ [.domains _, .links _] rfl (.step 3 _ [.links _] rfl (.step 2 _ [.links _] rfl (.step 2 _ [] rfl
      (.step 1 _ [] rfl (.step 3 _ [] rfl (.step 0 _ [] rfl (.done (by decide))))))))))⟩, rfl, by decide⟩

/-- For the payloads, and for the violated claims. -/
example : Keys Db.emptyDB ∧ (exItem 1 [[7]]).row.id ≠ (exItem 2 [[7]]).row.id ∧ ([7], [1]) ∉ Db.emptyDB.domainCerts ∧ (∀ r ∈ Db.emptyDB.certs, r.id ≠ (exItem 1 [[7]]).row.id) :=
  ⟨⟨List.nodup_nil, List.nodup_nil, List.nodup_nil⟩, by decide, by decide, by decide⟩

end Fpki.IngestDb
