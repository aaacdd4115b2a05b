import Verif.Props.EndToEnd

/-!
# C117: two map servers with the same data have the same root, and servers with the same root have the same data
-/
namespace Fpki.E2E
open Fpki.Db Fpki.Smt Fpki.Dirty Fpki.Responder Fpki.Ids Fpki.Domain
open Fpki.Chains (X509)

/-- Two strictly ascending lists with the same members are the same. -/
theorem ascending_ext {a b : List Bytes} (ha : Ascending a) (hb : Ascending b) (h : ∀ x, x ∈ a ↔ x ∈ b) : a = b := by
  have hn : ∀ {l : List Bytes}, Ascending l → l.Nodup := fun hl => hl.imp (fun {x y} h e => by subst e; rw [bytesLt_irrefl] at h; cases h)
  have hs : ∀ {l : List Bytes}, Ascending l → l.Pairwise (fun x y => bytesLt y x = false) := fun hl => hl.imp (fun {x y} h => by
    cases hx : bytesLt y x with
    | false => rfl
    | true =>
      have := bytesLt_trans h hx
      rw [bytesLt_irrefl] at this
      cases this)
  exact goSorted_unique ((List.perm_ext_iff_of_nodup (hn ha) (hn hb)).2 h) (hs ha) (hs hb)

/-- The result of SortIDsAndGlue is unique. -/
theorem glue_unique {ids : List Bytes} {v w : Bytes} (h1 : SortIDsAndGlue ids v) (h2 : SortIDsAndGlue ids w) : v = w := by
  obtain ⟨sa, h1, rfl⟩ := h1
  obtain ⟨sb, h2, rfl⟩ := h2
  rw [goSorted_unique (h1.perm.trans h2.perm.symm) h1.sorted h2.sorted]

/-- Two states where nothing is dirty, with the same table: they have the same tree. -/
theorem same_tree {H : Bytes → Bytes} {s s' : Sys} (hi : SInv H s) (hi' : SInv H s') (hd : s.db.dirty = []) (hd' : s'.db.dirty = [])
    (ht : ∀ d : Bytes, d.length = 32 → tableOf s.db d = tableOf s'.db d) : s.tree = s'.tree := by
  obtain ⟨hist, hg, e⟩ := hi.tree
  obtain ⟨hist', hg', e'⟩ := hi'.tree
  have hw := hg.spec.1
  have hw' := hg'.spec.1
  rw [← e] at hw
  rw [← e'] at hw'
  refine hw.unique hw' (fun k hk => ?_)
  have hk32 : k.length = 32 := by have := hk.1; omega
  have h1 := hi.sync k hk32 (by simp [IsDirty, hd])
  have h2 := hi'.sync k hk32 (by simp [IsDirty, hd'])
  unfold SyncAt at h1 h2
  rw [ht k hk32] at h1
  split at h1
  · rename_i h0
    rw [if_pos h0] at h2
    rw [h1, h2]
  · rename_i h0
    rw [if_neg h0] at h2
    obtain ⟨v, h3, h4⟩ := h1
    obtain ⟨w, h5, h6⟩ := h2
    rw [h4, h6, glue_unique h3 h5]

/-- What `ops ++ [.finish]` leaves. -/
theorem finished {H : Bytes → Bytes} (hH : ∀ x, (H x).length = 32) {ops : List Op} {s : Sys} (hrun : Run H (ops ++ [.finish]) s)
    (hn : ∀ op ∈ ops, op.NoPrune) (hcm : ∀ op ∈ ops, op.Complete) (hc : Consistent H ops) :
    SInv H s ∧ s.db.dirty = [] ∧ Consistent H (ops ++ [.finish]) ∧ Holds H (ops ++ [.finish]) s.db := by
  have hmore : ∀ op ∈ [Op.finish], op = .finish ∨ op = .reload := by simp
  have hn' : ∀ op ∈ ops ++ [.finish], op.NoPrune := by
    intro op ho
    rcases List.mem_append.1 ho with h | h
    · exact hn op h
    · cases List.mem_singleton.1 h; exact True.intro
  have hcm' : ∀ op ∈ ops ++ [.finish], op.Complete := by
    intro op ho
    rcases List.mem_append.1 ho with h | h
    · exact hcm op h
    · cases List.mem_singleton.1 h; exact True.intro
  have hc' : Consistent H (ops ++ [.finish]) := by
    have h1 : ∀ l c, Submitted (ops ++ [.finish]) l c → Submitted ops l c := by
      rintro l c ⟨a, b, k, h2, h3⟩
      rcases List.mem_append.1 h2 with h2 | h2
      · exact ⟨a, b, k, h2, h3⟩
      · cases List.mem_singleton.1 h2
    have h2 : ∀ p, PolSubmitted (ops ++ [.finish]) p → PolSubmitted ops p := by
      rintro p ⟨a, b, k, h2, h3⟩
      rcases List.mem_append.1 h2 with h2 | h2
      · exact ⟨a, b, k, h2, h3⟩
      · cases List.mem_singleton.1 h2
    exact ⟨fun l c l' c' hl hl' => hc.certs l c l' c' (h1 _ _ hl) (h1 _ _ hl'), fun p p' hp hp' => hc.policies p p' (h2 _ hp) (h2 _ hp')⟩
  have hend : s.db.dirty = [] := by
    generalize hl : ops ++ [Op.finish] = l at hrun
    cases hrun with
    | nil => simp at hl
    | snoc l2 s2 _ op2 hr2 hst2 =>
      obtain ⟨h1, h2⟩ := List.append_inj' hl rfl
      cases h2
      cases hst2
      rfl
  exact ⟨safe_sinv hH (noPrune_safe hH hrun hn').1, hend, hc', run_holds hH hrun hn' hcm' hc'⟩

/-- The columns of the table after `ops ++ [.finish]`. -/
theorem finished_table {H : Bytes → Bytes} (hH : ∀ x, (H x).length = 32) {ops : List Op} {s : Sys} (hrun : Run H (ops ++ [.finish]) s)
    (hn : ∀ op ∈ ops, op.NoPrune) (hcm : ∀ op ∈ ops, op.Complete) (hc : Consistent H ops) (name : Bytes) :
    ∃ cs ps : List Bytes, Ascending cs ∧ Ascending ps ∧ (∀ i, i ∈ cs ↔ Belongs H ops name i) ∧ (∀ i, i ∈ ps ↔ PolBelongs H ops name i) ∧
      tableOf s.db (H name) = ⟨cs.flatten, ps.flatten⟩ ∧ (tableOf s.db (H name)).ids = cs ++ ps := by
  obtain ⟨hi, hd, hc', hh⟩ := finished hH hrun hn hcm hc
  have hmore : ∀ op ∈ [Op.finish], op = .finish ∨ op = .reload := by simp
  obtain ⟨cs, ps, c1, c2, c3, c4, c5, c6⟩ := table_columns hi (d := H name) (by simp [hd])
  refine ⟨cs, ps, c1, c2, fun i => ?_, fun i => ?_, c5, c6⟩
  · rw [c3, closure_belongs hH hh hc', (belongs_append hmore name i).1]
  · rw [c4, ← (belongs_append hmore name i).2]
    refine (closure_nil_parent hi.inv.pol i).trans ⟨?_, ?_⟩
    · rintro ⟨_, h⟩
      obtain ⟨p, k1, k2, k3⟩ := (hh.polLinks _ _).1 h
      exact ⟨p, k1, k2, k3.symm⟩
    · rintro ⟨p, k1, k2, rfl⟩
      exact ⟨(hh.pols _).2 ⟨p, k1, rfl⟩, (hh.polLinks _ _).2 ⟨p, k1, k2, rfl⟩⟩

/-- A domain ID that is no name's has an empty row. -/
theorem finished_other {H : Bytes → Bytes} (hH : ∀ x, (H x).length = 32) {ops : List Op} {s : Sys} (hrun : Run H (ops ++ [.finish]) s)
    (hn : ∀ op ∈ ops, op.NoPrune) (hcm : ∀ op ∈ ops, op.Complete) (hc : Consistent H ops) (d : Bytes) (hno : ¬ ∃ name, H name = d) :
    tableOf s.db d = ⟨[], []⟩ := by
  obtain ⟨hi, hd, hc', hh⟩ := finished hH hrun hn hcm hc
  obtain ⟨cs, ps, c1, c2, c3, c4, c5, c6⟩ := table_columns hi (d := d) (by simp [hd])
  have e1 : cs = [] := by
    apply List.eq_nil_iff_forall_not_mem.2
    intro i h
    obtain ⟨c, h1, _⟩ := (c3 i).1 h
    clear c3 h
    induction h1 generalizing i with
    | link c _ hl =>
      obtain ⟨_, _, _, n, _, h4⟩ := (hh.links _ _).1 hl
      exact hno ⟨n, h4⟩
    | parent _ _ _ _ _ ih => exact ih _ rfl
  have e2 : ps = [] := by
    apply List.eq_nil_iff_forall_not_mem.2
    intro i h
    obtain ⟨p, _, h4, _⟩ := (hh.polLinks _ _).1 ((closure_nil_parent hi.inv.pol i).1 ((c4 i).1 h)).2
    exact hno ⟨_, h4⟩
  rw [c5, e1, e2]
  rfl

/-- C117 (partial: without pruning, with insertions that are not interrupted and agree with each other): two map servers to which the same certificates (with the same chains) and the
same policies were submitted - in any order, any grouping into batches, any number of times, with any coalescing and updates of the tree in between - end with the same tree and the same
root, and return the same IDs for every domain. -/
theorem C117_same_root_partial (H : Bytes → Bytes) (hH : ∀ x, (H x).length = 32) (ops ops' : List Op) (s s' : Sys)
    (hrun : Run H (ops ++ [.finish]) s) (hn : ∀ op ∈ ops, op.NoPrune) (hcm : ∀ op ∈ ops, op.Complete) (hc : Consistent H ops)
    (hrun' : Run H (ops' ++ [.finish]) s') (hn' : ∀ op ∈ ops', op.NoPrune) (hcm' : ∀ op ∈ ops', op.Complete)
    (hsub : ∀ leaf chain, Submitted ops leaf chain ↔ Submitted ops' leaf chain) (hpol : ∀ p, PolSubmitted ops p ↔ PolSubmitted ops' p) :
    s.tree = s'.tree ∧ rootHash H 256 s.tree = rootHash H 256 s'.tree ∧ ∀ d : Bytes, d.length = 32 → tableOf s.db d = tableOf s'.db d := by
  have hc' : Consistent H ops' := ⟨fun l c l' c' hl hl' => hc.certs l c l' c' ((hsub _ _).2 hl) ((hsub _ _).2 hl'),
    fun p p' hp hp' => hc.policies p p' ((hpol _).2 hp) ((hpol _).2 hp')⟩
  have hb : ∀ name i, Belongs H ops name i ↔ Belongs H ops' name i := fun name i => by simp only [Belongs, hsub]
  have hpb : ∀ name i, PolBelongs H ops name i ↔ PolBelongs H ops' name i := fun name i => by simp only [PolBelongs, hpol]
  have ht : ∀ d : Bytes, d.length = 32 → tableOf s.db d = tableOf s'.db d := by
    intro d _
    by_cases hname : ∃ name, H name = d
    · obtain ⟨name, rfl⟩ := hname
      obtain ⟨cs, ps, c1, c2, c3, c4, c5, _⟩ := finished_table hH hrun hn hcm hc name
      obtain ⟨cs', ps', d1, d2, d3, d4, d5, _⟩ := finished_table hH hrun' hn' hcm' hc' name
      rw [c5, d5, ascending_ext c1 d1 (fun i => by rw [c3, d3, hb]), ascending_ext c2 d2 (fun i => by rw [c4, d4, hpb])]
    · rw [finished_other hH hrun hn hcm hc d hname, finished_other hH hrun' hn' hcm' hc' d hname]
  have := same_tree (finished hH hrun hn hcm hc).1 (finished hH hrun' hn' hcm' hc').1 (finished hH hrun hn hcm hc).2.1 (finished hH hrun' hn' hcm' hc').2.1 ht
  exact ⟨this, by rw [this], ht⟩

/-! ## The root binds the data -/

/-- Leaves of a tree whose keys and values have 32 bytes. -/
theorem allLeaves_sized {n : Nat} (hn : n = 256) : ∀ {t : Node} {i : Nat} {q : Nat → Bool}, WF n i q t → (∀ k, InPre n q i k → ∀ v, get i t k = some v → v.length = 32) →
    AllLeaves Sized t := by
  intro t
  induction t with
  | empty => intro i q _ _; exact True.intro
  | leaf k v =>
    intro i q hw hg
    have hk : InPre n q i k := hw
    exact ⟨by have := hk.1; omega, hg k hk v (by simp [Smt.get])⟩
  | node l r ihl ihr =>
    intro i q hw hg
    obtain ⟨_, h1, h2, _⟩ := hw
    refine ⟨ihl h1 (fun k hk v hv => ?_), ihr h2 (fun k hk v hv => ?_)⟩
    · have := InPre.ext_iff.1 hk
      exact hg k this.1 v (by simp only [Smt.get]; rw [if_neg (by rw [this.2]; simp)]; exact hv)
    · have := InPre.ext_iff.1 hk
      exact hg k this.1 v (by simp only [Smt.get]; rw [if_pos this.2]; exact hv)

theorem sinv_sized {H : Bytes → Bytes} (hH : ∀ x, (H x).length = 32) {s : Sys} (hi : SInv H s) (hd : s.db.dirty = []) : AllLeaves Sized s.tree := by
  obtain ⟨hist, hg, e⟩ := hi.tree
  have hw := hg.spec.1
  rw [← e] at hw
  refine allLeaves_sized rfl hw (fun k hk v hv => ?_)
  have h1 := hi.sync k (by have := hk.1; omega) (by simp [IsDirty, hd])
  unfold SyncAt at h1
  split at h1
  · rw [h1] at hv; cases hv
  · obtain ⟨w, _, h2⟩ := h1
    rw [h2] at hv
    cases hv
    exact hH _

/-- Two lists of IDs glue to different strings with the same hash. -/
def GlueClash (H : Bytes → Bytes) (ids ids' : List Bytes) : Prop := ∃ v v', SortIDsAndGlue ids v ∧ SortIDsAndGlue ids' v' ∧ v ≠ v' ∧ H v = H v'

/-- C117 (partial: as above): two map servers with the same root have for every name the same IDs (those of certificates and of policies taken together), unless two different strings
hashed by them collide, or two digests overlap in all but one byte (the second case of C03). -/
theorem C117_same_data_partial (H : Bytes → Bytes) (hH : ∀ x, (H x).length = 32) (ops ops' : List Op) (s s' : Sys)
    (hrun : Run H (ops ++ [.finish]) s) (hn : ∀ op ∈ ops, op.NoPrune) (hcm : ∀ op ∈ ops, op.Complete) (hc : Consistent H ops)
    (hrun' : Run H (ops' ++ [.finish]) s') (hn' : ∀ op ∈ ops', op.NoPrune) (hcm' : ∀ op ∈ ops', op.Complete) (hc' : Consistent H ops')
    (hroot : rootHash H 256 s.tree = rootHash H 256 s'.tree) :
    (∀ name i, Belongs H ops name i ∨ PolBelongs H ops name i ↔ Belongs H ops' name i ∨ PolBelongs H ops' name i) ∨
    Clash H (preimages H 256 s.tree) (preimages H 256 s'.tree) ∨ Shift H (preimages H 256 s.tree) (preimages H 256 s'.tree) ∨
    ∃ name cs ps cs' ps', (∀ i, i ∈ cs ++ ps ↔ Belongs H ops name i ∨ PolBelongs H ops name i) ∧ (∀ i, i ∈ cs' ++ ps' ↔ Belongs H ops' name i ∨ PolBelongs H ops' name i) ∧
      GlueClash H (cs ++ ps) (cs' ++ ps') := by
  obtain ⟨hi, hd, _, _⟩ := finished hH hrun hn hcm hc
  obtain ⟨hi', hd', _, _⟩ := finished hH hrun' hn' hcm' hc'
  have hdig : digest H 256 s.tree = digest H 256 s'.tree := by
    unfold rootHash at hroot
    cases ha : s.tree <;> cases hb : s'.tree <;> rw [ha, hb] at hroot <;> simp at hroot <;> first | rfl | exact hroot
  rcases digest_inj H hH _ _ 256 (sinv_sized hH hi hd) (sinv_sized hH hi' hd') hdig with h | h | h
  · by_cases hgl : ∃ name cs ps cs' ps', (∀ i, i ∈ cs ++ ps ↔ Belongs H ops name i ∨ PolBelongs H ops name i) ∧
        (∀ i, i ∈ cs' ++ ps' ↔ Belongs H ops' name i ∨ PolBelongs H ops' name i) ∧ GlueClash H (cs ++ ps) (cs' ++ ps')
    · exact Or.inr (Or.inr (Or.inr hgl))
    · left
      intro name
      obtain ⟨cs, ps, c1, c2, c3, c4, c5, c6⟩ := finished_table hH hrun hn hcm hc name
      obtain ⟨cs', ps', d1, d2, d3, d4, d5, d6⟩ := finished_table hH hrun' hn' hcm' hc' name
      have m : ∀ i, i ∈ cs ++ ps ↔ Belongs H ops name i ∨ PolBelongs H ops name i := fun i => by rw [List.mem_append, c3, c4]
      have m' : ∀ i, i ∈ cs' ++ ps' ↔ Belongs H ops' name i ∨ PolBelongs H ops' name i := fun i => by rw [List.mem_append, d3, d4]
      suffices hp : ∀ i, i ∈ cs ++ ps ↔ i ∈ cs' ++ ps' from fun i => by rw [← m, ← m', hp]
      have h1 := hi.sync (H name) (hH _) (by simp [IsDirty, hd])
      have h2 := hi'.sync (H name) (hH _) (by simp [IsDirty, hd'])
      unfold SyncAt at h1 h2
      rw [c6] at h1
      rw [d6] at h2
      rw [h] at h1
      by_cases e1 : cs ++ ps = [] <;> by_cases e2 : cs' ++ ps' = []
      · rw [e1, e2]; simp
      · rw [if_pos e1] at h1
        rw [if_neg e2] at h2
        obtain ⟨v, _, h3⟩ := h2
        rw [h1] at h3
        cases h3
      · rw [if_pos e2] at h2
        rw [if_neg e1] at h1
        obtain ⟨v, _, h3⟩ := h1
        rw [h2] at h3
        cases h3
      · rw [if_neg e1] at h1
        rw [if_neg e2] at h2
        obtain ⟨v, h3, h4⟩ := h1
        obtain ⟨v', h5, h6⟩ := h2
        rw [h4] at h6
        have hv : H v = H v' := Option.some.inj h6
        by_cases hvv : v = v'
        · subst hvv
          have l1 : ∀ x ∈ cs ++ ps, x.length = 32 := by
            intro x hx
            rcases (m x).1 hx with ⟨_, _, _, _, _, _, rfl⟩ | ⟨_, _, _, rfl⟩ <;> exact hH _
          have l2 : ∀ x ∈ cs' ++ ps', x.length = 32 := by
            intro x hx
            rcases (m' x).1 hx with ⟨_, _, _, _, _, _, rfl⟩ | ⟨_, _, _, rfl⟩ <;> exact hH _
          exact fun i => ((C14_glue_eq_iff_perm _ _ _ _ l1 l2 h3 h5).1 rfl).mem_iff
        · exact absurd ⟨name, cs, ps, cs', ps', m, m', v, v', h3, h5, hvv, hv⟩ hgl
  · exact Or.inr (Or.inl h)
  · exact Or.inr (Or.inr (Or.inl h))

/-! ## The order matters for certificates with two issuers -/

/-- Two issuers of the certificate `exLeaf`. -/
def exA : X509 := ⟨[5], [], 90⟩
def exB : X509 := ⟨[6], [], 90⟩

/-- `exLeaf` is submitted with one chain, and then with another. -/
def crossOps (x y : X509) : List Op := [.certs [exLeaf] [[x]] 4, .certs [exLeaf] [[y]] 4, .coalesce 0]

/-- The DB after that. -/
def crossDB (x y : X509) : DB := ⟨[⟨exH [7], exH x.raw, 90, [7]⟩, ⟨exH x.raw, [], 90, x.raw⟩, ⟨exH y.raw, [], 90, y.raw⟩], [(exH [1], [1])], [(exH [1], exH [7])], [], [],
  [⟨exH [1], some (exH x.raw ++ exH [7]), none⟩], [(exH [1], true)]⟩

theorem cross_sub (x y : X509) (l : X509) (c : List X509) : Submitted (crossOps x y) l c ↔ l = exLeaf ∧ (c = [x] ∨ c = [y]) := by
  unfold Submitted crossOps
  constructor
  · rintro ⟨ls, cs, k, h1, h2⟩
    simp only [List.mem_cons, List.not_mem_nil, or_false, reduceCtorEq, Op.certs.injEq] at h1
    rcases h1 with ⟨rfl, rfl, rfl⟩ | ⟨rfl, rfl, rfl⟩ <;> simp at h2
    · exact ⟨h2.1, Or.inl h2.2⟩
    · exact ⟨h2.1, Or.inr h2.2⟩
  · rintro ⟨rfl, rfl | rfl⟩
    · exact ⟨_, _, _, List.mem_cons_self, by simp⟩
    · exact ⟨_, _, _, List.mem_cons_of_mem _ List.mem_cons_self, by simp⟩

theorem cross_run (x y : X509) (db1 db2 : DB) (h1 : (certSteps exH start.db [exLeaf] [[x]]).map (fun st => runSteps (st.take 4) start.db) = some db1)
    (h2 : (certSteps exH db1 [exLeaf] [[y]]).map (fun st => runSteps (st.take 4) db1) = some db2) (h3 : db2.certs.length < 5 ∧ db2.policies.length < 5)
    (h4 : calcDirtyDomains 5 db2 0 10 = some (crossDB x y, 1)) :
    ∃ t, Run exH (crossOps x y ++ [.finish]) ⟨cleanupDirty (crossDB x y), t, .empty⟩ := by
  have r1 : Run exH [.certs [exLeaf] [[x]] 4] ⟨db1, .empty, .empty⟩ := Run.nil.more (step_certs rfl h1)
  have r2 : Run exH [.certs [exLeaf] [[x]] 4, .certs [exLeaf] [[y]] 4] ⟨db2, .empty, .empty⟩ := r1.more (step_certs rfl h2)
  have r3 : Run exH (crossOps x y) ⟨crossDB x y, .empty, .empty⟩ := r2.more (.coalesce 0 5 10 1 _ h3.1 h3.2 (by omega) h4)
  have hn : ∀ op ∈ crossOps x y, op.NoPrune := by simp [Op.NoPrune, crossOps]
  have hc : ∀ op ∈ crossOps x y, op.Complete := by simp [Op.Complete, crossOps]
  have hw : ∀ d, (d, false) ∉ (crossDB x y).dirty := fun d hd => by
    have := mem_one hd
    cases this
  obtain ⟨⟨o, ho⟩, hsome⟩ := C91_no_panic_partial exH exH_length _ _ r3 hn hc hw 1 (by omega)
  obtain ⟨t, rfl⟩ := hsome o ho
  exact ⟨t, r3.more (.finish 1 t (by omega) hw ho)⟩

theorem mergeSort_two (le : Bytes → Bytes → Bool) (a b : Bytes) : [a, b].mergeSort le = if le a b then [a, b] else [b, a] := by
  simp [List.mergeSort, List.MergeSort.Internal.splitInTwo, List.merge]

/-- The coalescing of the one domain. -/
theorem cross_coalesce (x y : X509) (db : DB) (h1 : chunkOf db 0 10 = [exH [1]]) (h2 : closureLoop db.certs 5 (linked db.certs db.domainCerts (exH [1])) (linked db.certs db.domainCerts (exH [1])) =
      some [⟨exH [7], exH x.raw, 90, [7]⟩, ⟨exH x.raw, [], 90, x.raw⟩]) (h3 : bytesLt (exH x.raw) (exH [7]) = true) (h4 : aggregate 5 db.policies db.domainPolicies (exH [1]) = some none)
    (h5 : db = ⟨[⟨exH [7], exH x.raw, 90, [7]⟩, ⟨exH x.raw, [], 90, x.raw⟩, ⟨exH y.raw, [], 90, y.raw⟩], [(exH [1], [1])], [(exH [1], exH [7])], [], [], [], [(exH [1], false)]⟩) :
    calcDirtyDomains 5 db 0 10 = some (crossDB x y, 1) := by
  have hp : payloadOf 5 db (exH [1]) = some ⟨exH [1], some (exH x.raw ++ exH [7]), none⟩ := by
    unfold payloadOf
    rw [h4]
    have : aggregate 5 db.certs db.domainCerts (exH [1]) = some (some (exH x.raw ++ exH [7])) := by
      unfold aggregate
      dsimp only
      rw [h2]
      simp only [Option.map_some, glue]
      rw [if_neg (by simp)]
      simp only [List.map_cons, List.map_nil]
      rw [mergeSort_two, h3]
      simp [idsToBytes]
    rw [this]
  unfold calcDirtyDomains
  dsimp only
  rw [h1]
  simp only [List.length_cons, List.length_nil, List.mapM_cons, List.mapM_nil, hp]
  subst h5
  rfl

/-- C117 does not hold in general: a certificate is submitted with two issuers (as with cross-signed issuers), once in one order and once in the other. The two servers get the same
submissions, but have different roots and answer with different IDs: each returns only the issuer submitted first. -/
theorem C117_cross_signed_violated : ∃ s s', Run exH (crossOps exA exB ++ [.finish]) s ∧ Run exH (crossOps exB exA ++ [.finish]) s' ∧
    (∀ leaf chain, Submitted (crossOps exA exB) leaf chain ↔ Submitted (crossOps exB exA) leaf chain) ∧
    (∀ p, PolSubmitted (crossOps exA exB) p ↔ PolSubmitted (crossOps exB exA) p) ∧
    tableOf s.db (exH [1]) = ⟨exH [5] ++ exH [7], []⟩ ∧ tableOf s'.db (exH [1]) = ⟨exH [6] ++ exH [7], []⟩ ∧
    Smt.get 0 s.tree (exH [1]) ≠ Smt.get 0 s'.tree (exH [1]) ∧ s.tree ≠ s'.tree := by
  obtain ⟨t, r⟩ := cross_run exA exB ⟨[⟨exH [7], exH [5], 90, [7]⟩, ⟨exH [5], [], 90, [5]⟩], [(exH [1], [1])], [(exH [1], exH [7])], [], [], [], [(exH [1], false)]⟩
    ⟨[⟨exH [7], exH [5], 90, [7]⟩, ⟨exH [5], [], 90, [5]⟩, ⟨exH [6], [], 90, [6]⟩], [(exH [1], [1])], [(exH [1], exH [7])], [], [], [], [(exH [1], false)]⟩
    (by decide +kernel) (by decide +kernel) (by decide +kernel)
    (cross_coalesce _ _ _ (by decide +kernel) (by decide +kernel) (by decide +kernel) (by decide +kernel) rfl)
  obtain ⟨t', r'⟩ := cross_run exB exA ⟨[⟨exH [7], exH [6], 90, [7]⟩, ⟨exH [6], [], 90, [6]⟩], [(exH [1], [1])], [(exH [1], exH [7])], [], [], [], [(exH [1], false)]⟩
    ⟨[⟨exH [7], exH [6], 90, [7]⟩, ⟨exH [6], [], 90, [6]⟩, ⟨exH [5], [], 90, [5]⟩], [(exH [1], [1])], [(exH [1], exH [7])], [], [], [], [(exH [1], false)]⟩
    (by decide +kernel) (by decide +kernel) (by decide +kernel)
    (cross_coalesce _ _ _ (by decide +kernel) (by decide +kernel) (by decide +kernel) (by decide +kernel) rfl)
  have hn : ∀ x y, ∀ op ∈ crossOps x y ++ [.finish], op.NoPrune := by simp [Op.NoPrune, crossOps]
  have e1 : tableOf (cleanupDirty (crossDB exA exB)) (exH [1]) = ⟨exH [5] ++ exH [7], []⟩ := by decide +kernel
  have e2 : tableOf (cleanupDirty (crossDB exB exA)) (exH [1]) = ⟨exH [6] ++ exH [7], []⟩ := by decide +kernel
  have h1 := (safe_sinv exH_length (noPrune_safe exH_length r (hn _ _)).1).sync (exH [1]) (exH_length _) (by simp [IsDirty, cleanupDirty])
  have h2 := (safe_sinv exH_length (noPrune_safe exH_length r' (hn _ _)).1).sync (exH [1]) (exH_length _) (by simp [IsDirty, cleanupDirty])
  unfold SyncAt at h1 h2
  dsimp only at h1 h2
  rw [e1, if_neg (by decide +kernel)] at h1
  rw [e2, if_neg (by decide +kernel)] at h2
  obtain ⟨v, h3, h4⟩ := h1
  obtain ⟨w, h5, h6⟩ := h2
  have g1 : v = exH [5] ++ exH [7] := glue_unique h3 ⟨[exH [5], exH [7]], ⟨by decide +kernel, by decide +kernel⟩, by simp [idsToBytes]⟩
  have g2 : w = exH [6] ++ exH [7] := glue_unique h5 ⟨[exH [6], exH [7]], ⟨by decide +kernel, by decide +kernel⟩, by simp [idsToBytes]⟩
  have hne : Smt.get 0 t (exH [1]) ≠ Smt.get 0 t' (exH [1]) := by
    rw [h4, h6, g1, g2]
    decide +kernel
  refine ⟨_, _, r, r', fun l c => by rw [cross_sub, cross_sub]; tauto, fun p => ?_, e1, e2, hne, ?_⟩
  · have : ∀ x y, ¬ PolSubmitted (crossOps x y) p := by
      rintro x y ⟨_, _, _, h, _⟩
      simp [crossOps] at h
    simp [this]
  · rintro rfl
    exact hne rfl

/-! ## The hypotheses can be met -/

/-- The operations of the example of C91 in another order and grouping: the certificate in the middle, once, and the policy twice. -/
def exOps' : List Op := [.policies (some 64) [([1], [9])] 4, .certs [exLeaf] [[⟨[8], [], 95⟩]] 4, .policies none [([1], [9]), ([1], [9])] 4]

example : ∀ leaf chain, Submitted exOps leaf chain ↔ Submitted exOps' leaf chain := by
  have h1 : ∀ l c, Submitted exOps l c ↔ l = exLeaf ∧ c = [⟨[8], [], 95⟩] := by
    intro l c
    constructor
    · rintro ⟨ls, cs, k, h1, h2⟩
      simp only [exOps, List.mem_cons, List.not_mem_nil, or_false, reduceCtorEq, false_or, Op.certs.injEq] at h1
      rcases h1 with ⟨rfl, rfl, rfl⟩ | ⟨rfl, rfl, rfl⟩ <;> simpa using h2
    · rintro ⟨rfl, rfl⟩
      exact ⟨_, _, _, List.mem_cons_self, by simp⟩
  have h2 : ∀ l c, Submitted exOps' l c ↔ l = exLeaf ∧ c = [⟨[8], [], 95⟩] := by
    intro l c
    constructor
    · rintro ⟨ls, cs, k, h1, h2⟩
      simp only [exOps', List.mem_cons, List.not_mem_nil, or_false, reduceCtorEq, false_or, Op.certs.injEq] at h1
      obtain ⟨rfl, rfl, rfl⟩ := h1
      simpa using h2
    · rintro ⟨rfl, rfl⟩
      exact ⟨_, _, _, List.mem_cons_of_mem _ List.mem_cons_self, by simp⟩
  intro l c
  rw [h1, h2]

example : (∀ p, PolSubmitted exOps p ↔ PolSubmitted exOps' p) ∧ (∀ op ∈ exOps', op.NoPrune) ∧ (∀ op ∈ exOps', op.Complete) ∧
    ∃ (ps : List Nat) (s : Sys), Run exH (exOps' ++ ps.map .coalesce ++ [.finish]) s := by
  have hn : ∀ op ∈ exOps', op.NoPrune := by simp [exOps', Op.NoPrune]
  have hc : ∀ op ∈ exOps', op.Complete := by simp [exOps', Op.Complete]
  refine ⟨fun p => ?_, hn, hc, ?_⟩
  · have h1 : PolSubmitted exOps p ↔ p = ([1], [9]) := by
      constructor
      · rintro ⟨ls, cs, k, h1, h2⟩
        simp only [exOps, List.mem_cons, List.not_mem_nil, or_false, reduceCtorEq, false_or, Op.policies.injEq] at h1
        obtain ⟨rfl, rfl, rfl⟩ := h1
        simpa using h2
      · rintro rfl
        exact ⟨_, _, _, List.mem_cons_of_mem _ List.mem_cons_self, by simp⟩
    have h2 : PolSubmitted exOps' p ↔ p = ([1], [9]) := by
      constructor
      · rintro ⟨ls, cs, k, h1, h2⟩
        simp only [exOps', List.mem_cons, List.not_mem_nil, or_false, reduceCtorEq, false_or, Op.policies.injEq] at h1
        rcases h1 with ⟨rfl, rfl, rfl⟩ | ⟨rfl, rfl, rfl⟩ <;> simpa using h2
      · rintro rfl
        exact ⟨_, _, _, List.mem_cons_self, by simp⟩
    rw [h1, h2]
  · have : (((policySteps exH start.db (some 64) [([1], [9])]).map (fun st => runSteps (st.take 4) start.db)).bind fun db1 =>
        ((certSteps exH db1 [exLeaf] [[⟨[8], [], 95⟩]]).map (fun st => runSteps (st.take 4) db1)).bind fun db2 =>
        (policySteps exH db2 none [([1], [9]), ([1], [9])]).map (fun st => runSteps (st.take 4) db2)).isSome = true := by decide +kernel
    obtain ⟨db3, h3⟩ := Option.isSome_iff_exists.1 this
    obtain ⟨db1, a1, h3⟩ := Option.bind_eq_some_iff.1 h3
    obtain ⟨db2, a2, a3⟩ := Option.bind_eq_some_iff.1 h3
    have r := ((Run.nil.more (step_policies (s := start) a1)).more (step_certs (s := ⟨db1, .empty, .empty⟩) rfl a2)).more (step_policies (s := ⟨db2, .empty, .empty⟩) a3)
    obtain ⟨ps, s, h⟩ := C91_update_completes_partial exH exH_length exOps' _ r hn hc
    generalize hl : exOps' ++ ps.map .coalesce ++ [.finish, .reload] = l at h
    cases h with
    | nil => simp at hl
    | snoc l1 s1 _ op1 hr1 hst1 =>
      have e : (exOps' ++ ps.map .coalesce ++ [.finish]) ++ [.reload] = l1 ++ [op1] := by rw [← hl]; simp
      obtain ⟨h1, _⟩ := List.append_inj' e rfl
      exact ⟨ps, s1, by rw [h1]; exact hr1⟩

end Fpki.E2E
