import Verif.Lemmas.SmtStoreCommit
import Verif.Model.SmtLoad

/-!
# Filling the live cache
-/
namespace Fpki.SmtStore

open Fpki.Smt (Node KVs Key Val byteOf digest preimages AllLeaves Sized NoHole Fits InPre WF ext walk)

variable {c : Cfg} {Hp : Bytes → Prop}

/-! ## Rows that are long enough -/

theorem parseLoop_short {val : Bytes} (hv : val.length < 4) : ∀ (m i j : Nat), ∀ s ∈ Smt.parseLoop val m i j, s = []
  | 0, _, _ => by simp [Smt.parseLoop]
  | m + 1, i, j => by
    intro s hs
    unfold Smt.parseLoop at hs
    split at hs <;> rcases List.mem_cons.1 hs with rfl | hs
    · unfold Smt.slice
      rw [List.drop_eq_nil_iff, List.length_take]
      omega
    · exact parseLoop_short hv _ _ _ s hs
    · rfl
    · exact parseLoop_short hv _ _ _ s hs

theorem parse_short {val : Bytes} (hv : val.length < 4) {i : Nat} (hi : 1 ≤ i) : slot (Smt.parseBatch val) i = [] := by
  have hall : ∀ s ∈ (Smt.parseBatch val).drop 1, s = [] := by
    unfold Smt.parseBatch
    split
    · intro s hs
      simp only [List.drop_succ_cons, List.drop_zero, List.mem_cons, List.mem_replicate] at hs
      rcases hs with rfl | rfl | ⟨_, rfl⟩
      · unfold Smt.slice; rw [List.drop_eq_nil_iff, List.length_take]; omega
      · unfold Smt.slice; rw [List.drop_eq_nil_iff, List.length_take]; omega
      · rfl
    · exact parseLoop_short hv _ _ _
  unfold slot
  rw [List.getD_eq_getElem?_getD]
  cases h : (Smt.parseBatch val)[i]? with
  | none => rfl
  | some s =>
    refine hall s ?_
    rw [List.mem_iff_getElem?]
    exact ⟨i - 1, by rw [List.getElem?_drop, show 1 + (i - 1) = i by omega]; exact h⟩

/-- The row of a tree is long enough. -/
theorem good_long {h : Nat} {u : Node} (hn : NoHole u) (hne : u ≠ .empty) {val : Bytes} (hg : Good c.H h u (Smt.parseBatch val)) : ¬ val.length < 4 := by
  intro hv
  have h1 := parse_short hv (i := 1) (by omega)
  have h2 := parse_short hv (i := 2) (by omega)
  have hs := hg.shape
  cases u with
  | empty => exact hne rfl
  | leaf k v =>
    have := hs.1
    rw [show 2 * 0 + 1 = 1 from rfl, h1] at this
    exact absurd this (by simp)
  | node l r =>
    have a := hs.1
    have b := hs.2.1
    rw [show 2 * 0 + 1 = 1 from rfl, h1] at a
    rw [show 2 * 0 + 2 = 2 from rfl, h2] at b
    refine hn.1 ⟨?_, ?_⟩
    · cases l with
      | empty => rfl
      | _ => simp [slotOf] at a
    · cases r with
      | empty => rfl
      | _ => simp [slotOf] at b

/-! ## Loading -/

theorem allB_of {P : Nat → Node → Prop} : ∀ {t : Node} {h : Nat}, (∀ h' u, Sub h t h' u → u ≠ .empty → P h' u) → AllB P h t
  | .empty, _, _ => True.intro
  | .leaf _ _, _, hp => fun _ => hp _ _ (.refl _ _) (by simp)
  | .node _ _, _, hp => ⟨fun _ => hp _ _ (.refl _ _) (by simp), allB_of (fun h' u hs => hp h' u (.left hs)), allB_of (fun h' u hs => hp h' u (.right hs))⟩

/-- The batches of the upper part of a tree are in the cache. -/
def Cached (c : Cfg) (live : Bytes → Option Batch) (h : Nat) (t : Node) : Prop := AllB (fun h' u => c.lim ≤ h' → ∃ b, live (digest c.H h' u) = some b) h t

/-- Nothing is lost from the cache. -/
def KeepsAll (l l' : Bytes → Option Batch) : Prop := ∀ d b, l d = some b → ∃ b', l' d = some b'

theorem KeepsAll.trans {l1 l2 l3 : Bytes → Option Batch} (h1 : KeepsAll l1 l2) (h2 : KeepsAll l2 l3) : KeepsAll l1 l3 := fun d b hb => by
  obtain ⟨b', hb'⟩ := h1 d b hb
  exact h2 d b' hb'

theorem Cached.grows {l l' : Bytes → Option Batch} {h : Nat} {t : Node} (hg : KeepsAll l l') (hc : Cached c l h t) : Cached c l' h t :=
  allB_mono (fun _ _ _ _ hp hl => by obtain ⟨b, hb⟩ := hp hl; exact hg _ b hb) hc

theorem allB_and {P Q : Nat → Node → Prop} : ∀ {t : Node} {h : Nat}, AllB P h t → AllB Q h t → AllB (fun h u => P h u ∧ Q h u) h t
  | .empty, _, _, _ => True.intro
  | .leaf _ _, _, h1, h2 => fun h4 => ⟨h1 h4, h2 h4⟩
  | .node _ _, _, h1, h2 => ⟨fun h4 => ⟨h1.1 h4, h2.1 h4⟩, allB_and h1.2.1 h2.2.1, allB_and h1.2.2 h2.2.2⟩

/-- What a call of `loadCache` gives. -/
structure LoadedOk (c : Cfg) (Hp : Bytes → Prop) (fail : Bytes → Bool) (h : Nat) (t : Node) (s : St) (q : Outcome × (Bytes → Option Batch)) : Prop where
  np : q.1 ≠ .panic
  err : q.1 = .err → ∃ d, fail d = true
  coh : Coh c Hp { s with live := q.2 }
  grows : KeepsAll s.live q.2
  cached : q.1 = .ok → Cached c q.2 h t

theorem Look.live {h i : Nat} {root : Bytes} {t : Node} {b : Batch} {ix : Nat} {s : St} (hl : Look c Hp h i root t b ix s) {live : Bytes → Option Batch} (hc : Coh c Hp { s with live := live }) :
    Look c Hp h i root t b ix { s with live := live } :=
  { hl with stored := stored_same ⟨rfl, rfl, rfl⟩ hl.stored, coh := hc }

theorem both_np {a b : Outcome} (ha : a ≠ .panic) (hb : b ≠ .panic) : both a b ≠ .panic := by cases a <;> cases b <;> simp_all [both]
theorem both_err {a b : Outcome} (h : both a b = .err) : a = .err ∨ b = .err := by cases a <;> cases b <;> simp_all [both]
theorem both_ok {a b : Outcome} (h : both a b = .ok) : a = .ok ∧ b = .ok := by cases a <;> cases b <;> simp_all [both]

theorem kids_ok {fail : Bytes → Bool} {g i ix : Nat} {l r : Node} {b : Batch} {s : St} {rec : Bytes → Batch → Nat → (Bytes → Option Batch) → Outcome × (Bytes → Option Batch)}
    (ih : ∀ (i : Nat) (root : Bytes) (t : Node) (b : Batch) (ix : Nat) (s' : St), s'.db = s.db → s'.upd = s.upd → Look c Hp g i root t b ix s' → LoadedOk c Hp fail g t s' (rec root b ix s'.live))
    (h1 : Look c Hp g i (slot b (2 * ix + 1)) l b (2 * ix + 1) s) (h2 : Look c Hp g i (slot b (2 * ix + 2)) r b (2 * ix + 2) s)
    (h4 : c.lim ≤ g + 1 → (g + 1) % 4 = 0 → ∃ b', s.live (digest c.H (g + 1) (.node l r)) = some b') :
    LoadedOk c Hp fail (g + 1) (.node l r) s (loadKids rec b ix s.live) := by
  have a := ih _ _ _ _ _ s rfl rfl h1
  have h2' := h2.live a.coh
  have d := ih _ _ _ _ _ { s with live := (rec (slot b (2 * ix + 1)) b (2 * ix + 1) s.live).2 } rfl rfl h2'
  unfold loadKids
  refine ⟨both_np a.np d.np, fun h => ?_, d.coh, a.grows.trans d.grows, fun h => ?_⟩
  · rcases both_err h with h | h
    · exact a.err h
    · exact d.err h
  · obtain ⟨o1, o2⟩ := both_ok h
    refine ⟨fun m4 hl => ?_, (a.cached o1).grows d.grows, d.cached o2⟩
    obtain ⟨b', hb'⟩ := h4 hl m4
    obtain ⟨b2, hb2⟩ := a.grows _ _ hb'
    exact d.grows _ _ hb2

/-- trie_tools.go:29-77 loads the upper batches of the tree. -/
theorem loadCache_ok (hA : NoAccident c.H Hp) (fail : Bytes → Bool) (db : Bytes → Option Bytes) : ∀ (h i : Nat) (root : Bytes) (t : Node) (b : Batch) (ix : Nat) (s : St), s.db = db → (∀ d, s.upd d = none) → Look c Hp h i root t b ix s →
    LoadedOk c Hp fail h t s (loadCache c db fail h root b ix s.live) := by
  intro h
  induction h with
  | zero =>
    intro i root t b ix s hdb hu hl
    rw [loadCache]
    by_cases hstop : 0 < c.lim ∨ root.length = 0
    · rw [if_pos hstop]
      refine ⟨by simp, by simp, hl.coh, fun d b hb => ⟨b, hb⟩, fun _ => ?_⟩
      rcases hstop with h0 | h0
      · exact allB_of (fun h' u hs _ hle => by have := hs.le; omega)
      · have : t = .empty := by
          by_cases hne : t = .empty
          · exact hne
          · exact absurd h0 (rootOk_hash hA hl.rootOk hne).2.2
        subst this
        exact True.intro
    · rw [if_neg hstop, if_pos rfl]
      have hne : t ≠ .empty := by
        rintro rfl
        exact hstop (Or.inr (by rw [(rootOk_empty hl.rootOk rfl).1]; rfl))
      obtain ⟨_, e2, _⟩ := rootOk_hash hA hl.rootOk hne
      have hlen : ¬ root.length < 32 := by
        have := congrArg List.length e2
        rw [digest_length hA.len hne, List.length_take] at this
        omega
      rw [if_neg hlen, e2]
      split
      · rename_i hf
        exact ⟨by simp, fun _ => ⟨_, hf⟩, hl.coh, fun d b hb => ⟨b, hb⟩, by simp⟩
      · rcases stored_avail hl.stored hne rfl with ⟨b', hb'⟩ | ⟨val, v1, v2, v3⟩
        · rw [hu] at hb'; cases hb'
        · rw [← hdb, v1]
          dsimp only [Option.getD]
          rw [if_neg (good_long hl.tok.noHole hne v3)]
          have hcoh : Coh c Hp { s with live := mapSet s.live (digest c.H 0 t) (some (Smt.parseBatch val)) } := by
            intro d b hb
            rcases hb with hb | hb
            · dsimp only [mapSet] at hb
              split at hb
              · cases hb; exact ⟨0, t, hl.tok, hne, by assumption, v3⟩
              · exact hl.coh d b (Or.inl hb)
            · exact hl.coh d b (Or.inr hb)
          have hgrow : KeepsAll s.live (mapSet s.live (digest c.H 0 t) (some (Smt.parseBatch val))) := by
            intro d b hb
            unfold mapSet
            split
            · exact ⟨_, rfl⟩
            · exact ⟨b, hb⟩
          have hres : LoadedOk c Hp fail 0 t s (.ok, mapSet s.live (digest c.H 0 t) (some (Smt.parseBatch val))) := by
            refine ⟨by simp, by simp, hcoh, hgrow, fun _ => ?_⟩
            cases t with
            | empty => exact True.intro
            | node l r => have := hl.tok.fits; simp [Fits] at this
            | leaf k v => exact fun _ _ => ⟨_, by unfold mapSet; exact if_pos rfl⟩
          split
          · exact hres
          · exact hres
  | succ g ih =>
    intro i root t b ix s hdb hu hl
    rw [loadCache]
    by_cases hstop : g + 1 < c.lim ∨ root.length = 0
    · rw [if_pos hstop]
      refine ⟨by simp, by simp, hl.coh, fun d b hb => ⟨b, hb⟩, fun _ => ?_⟩
      rcases hstop with h0 | h0
      · exact allB_of (fun h' u hs _ hle => by have := hs.le; omega)
      · have : t = .empty := by
          by_cases hne : t = .empty
          · exact hne
          · exact absurd h0 (rootOk_hash hA hl.rootOk hne).2.2
        subst this
        exact True.intro
    · rw [if_neg hstop]
      have hne : t ≠ .empty := by
        rintro rfl
        exact hstop (Or.inr (by rw [(rootOk_empty hl.rootOk rfl).1]; rfl))
      obtain ⟨_, e2, _⟩ := rootOk_hash hA hl.rootOk hne
      have hlen : ¬ root.length < 32 := by
        have := congrArg List.length e2
        rw [digest_length hA.len hne, List.length_take] at this
        omega
      by_cases h4 : (g + 1) % 4 = 0
      · rw [if_pos h4, if_neg hlen, e2]
        split
        · rename_i hf
          exact ⟨by simp, fun _ => ⟨_, hf⟩, hl.coh, fun d b hb => ⟨b, hb⟩, by simp⟩
        · rcases stored_avail hl.stored hne h4 with ⟨b', hb'⟩ | ⟨val, v1, v2, v3⟩
          · rw [hu] at hb'; cases hb'
          · rw [← hdb, v1]
            dsimp only [Option.getD]
            rw [if_neg (good_long hl.tok.noHole hne v3)]
            have hcoh : Coh c Hp { s with live := mapSet s.live (digest c.H (g + 1) t) (some (Smt.parseBatch val)) } := by
              intro d b hb
              rcases hb with hb | hb
              · dsimp only [mapSet] at hb
                split at hb
                · cases hb; exact ⟨g + 1, t, hl.tok, hne, by assumption, v3⟩
                · exact hl.coh d b (Or.inl hb)
              · exact hl.coh d b (Or.inr hb)
            have hgrow : KeepsAll s.live (mapSet s.live (digest c.H (g + 1) t) (some (Smt.parseBatch val))) := by
              intro d b hb
              unfold mapSet
              split
              · exact ⟨_, rfl⟩
              · exact ⟨b, hb⟩
            rw [v3.flag]
            cases t with
            | empty => exact absurd rfl hne
            | leaf k v =>
              rw [if_pos (show Node.isLeaf (.leaf k v) = true from rfl), if_pos (show (List.getD [1] 0 0 : Byte) = 1 from rfl)]
              exact ⟨by simp, by simp, hcoh, hgrow, fun _ _ _ => ⟨_, by dsimp only; unfold mapSet; exact if_pos rfl⟩⟩
            | node l r =>
              rw [if_neg (show ¬ Node.isLeaf (.node l r) = true by simp [Node.isLeaf]), if_neg (show ¬ (List.getD [0] 0 0 : Byte) = 1 by decide)]
              have hl' := hl.live hcoh
              obtain ⟨ld, f1, f2⟩ := load_ok hA hl'.sum hl'.tok hl'.rootOk hl'.batch hl'.stored hl'.coh
              have hld : ld = ⟨Smt.parseBatch val, 0, slot (Smt.parseBatch val) 1, slot (Smt.parseBatch val) 2, (slot (Smt.parseBatch val) 0).getD 0 0 == 1, { s with live := mapSet s.live (digest c.H (g + 1) (.node l r)) (some (Smt.parseBatch val)) }⟩ := by
                unfold loadChildren at f1
                rw [if_pos h4, if_neg (rootOk_hash hA hl.rootOk hne).2.2] at f1
                unfold loadBatch at f1
                rw [(rootOk_hash hA hl.rootOk hne).1] at f1
                dsimp only at f1
                rw [show mapSet s.live (digest c.H (g + 1) (.node l r)) (some (Smt.parseBatch val)) (digest c.H (g + 1) (.node l r)) = some (Smt.parseBatch val) by unfold mapSet; exact if_pos rfl] at f1
                cases f1
                rfl
              subst hld
              obtain ⟨k1, k2, _, _⟩ := look_kids hl'.tok hl'.stored f2
              have := kids_ok (fail := fail) (rec := loadCache c db fail g) (s := { s with live := mapSet s.live (digest c.H (g + 1) (.node l r)) (some (Smt.parseBatch val)) })
                (ix := 0) (b := Smt.parseBatch val) (fun i root t b ix s' h1 hu' h2 => ih i root t b ix s' (h1.trans hdb) (by rw [hu']; exact hu) h2) k1 k2 (fun _ _ => ⟨Smt.parseBatch val, by dsimp only; unfold mapSet; exact if_pos rfl⟩)
              rw [hdb]
              exact ⟨this.np, this.err, this.coh, hgrow.trans this.grows, this.cached⟩
      · rw [if_neg h4]
        obtain ⟨b1, b2, b3, b4, b5⟩ := hl.batch h4
        have hroot : root = slotOf c.H (g + 1) t := by
          rcases hl.rootOk with ⟨h1, _⟩ | ⟨_, h1 | ⟨h1, _⟩⟩
          · exact absurd h1 hne
          · exact h1
          · omega
        obtain ⟨f, g1, g2⟩ := slotOf_eq (H := c.H) (h := g + 1) hne
        have hlen := digest_length hA.len (h := g + 1) hne
        have hrl : root.length = 33 := by rw [hroot, g1, List.length_append, hlen]; rfl
        have hflag : flagOf root = f := by
          unfold flagOf
          rw [hroot, g1, List.getD_eq_getElem?_getD, List.getElem?_append_right (by omega), hlen]
          rfl
        rw [b2, if_neg (by omega), hflag]
        cases t with
        | empty => exact absurd rfl hne
        | leaf k v =>
          rw [if_pos ⟨by omega, g2.2 rfl⟩]
          exact ⟨by simp, by simp, hl.coh, fun d b hb => ⟨b, hb⟩, fun _ h => absurd h h4⟩
        | node l r =>
          rw [if_neg (fun h => absurd (g2.1 h.2) (by simp [Node.isLeaf]))]
          obtain ⟨ld, f1, f2⟩ := load_ok hA hl.sum hl.tok hl.rootOk hl.batch hl.stored hl.coh
          unfold loadChildren at f1
          rw [if_neg h4] at f1
          cases f1
          obtain ⟨k1, k2, _, _⟩ := look_kids hl.tok hl.stored f2
          exact kids_ok (fun i root t b ix s' h1 hu' h2 => ih i root t b ix s' (h1.trans hdb) (by rw [hu']; exact hu) h2) k1 k2 (fun _ h => absurd h h4)

/-! ## Reading without the DB -/

/-- States that a reader cannot tell apart. -/
structure Rel (s s2 : St) : Prop where
  live : s2.live = s.live
  db : s2.db = s.db
  upd : ∀ d, s.live d = none → s2.upd d = s.upd d

/-- Both fail, or both succeed with states that cannot be told apart. -/
def RelO {α : Type} (f : α → α → Prop) : Option α → Option α → Prop
  | none, none => True
  | some a, some b => f a b
  | _, _ => False

theorem loadBatch_rel {s s2 : St} (h : Rel s s2) (root : Bytes) (g : Nat) : RelO (fun q q2 => q2.1 = q.1 ∧ Rel q.2 q2.2) (loadBatch c root g s) (loadBatch c root g s2) := by
  unfold loadBatch
  rw [h.live, h.db]
  cases hl : s.live (toHash root) with
  | some b => exact ⟨rfl, h⟩
  | none =>
    dsimp only
    rw [h.upd _ hl]
    cases hu : s.upd (toHash root) with
    | some b => exact ⟨rfl, h⟩
    | none =>
      dsimp only
      cases hd : s.db (root.take 32) with
      | none => exact True.intro
      | some val =>
        dsimp only
        split
        · exact True.intro
        · split
          · refine ⟨rfl, ⟨rfl, rfl, fun d hd => ?_⟩⟩
            dsimp only at hd ⊢
            unfold mapSet at hd
            split at hd
            · cases hd
            · exact h.upd d hd
          · exact ⟨rfl, h⟩

theorem loadChildren_rel {s s2 : St} (h : Rel s s2) (root : Bytes) (g ix : Nat) (b : Batch) :
    RelO (fun q q2 => q2.batch = q.batch ∧ q2.i = q.i ∧ q2.l = q.l ∧ q2.r = q.r ∧ q2.isShortcut = q.isShortcut ∧ Rel q.st q2.st) (loadChildren c root g ix b s) (loadChildren c root g ix b s2) := by
  unfold loadChildren
  split
  · split
    · exact ⟨rfl, rfl, rfl, rfl, rfl, h⟩
    · have hb := loadBatch_rel (c := c) h root g
      revert hb
      cases loadBatch c root g s <;> cases loadBatch c root g s2 <;> intro hb
      · exact True.intro
      · exact hb.elim
      · exact hb.elim
      · obtain ⟨h1, h2⟩ := hb
        dsimp only [RelO]
        rw [h1]
        exact ⟨rfl, rfl, rfl, rfl, rfl, h2⟩
  · exact ⟨rfl, rfl, rfl, rfl, rfl, h⟩

theorem get_rel (key : Key) : ∀ (h : Nat) (root : Bytes) (b : Batch) (ix : Nat) (s s2 : St), Rel s s2 → (get c h root key b ix s2).map Prod.fst = (get c h root key b ix s).map Prod.fst := by
  intro h
  induction h with
  | zero =>
    intro root b ix s s2 hr
    rw [get, get]
    split
    · rfl
    · have hb := loadChildren_rel (c := c) hr root 0 ix b
      revert hb
      cases loadChildren c root 0 ix b s <;> cases loadChildren c root 0 ix b s2 <;> intro hb
      · rfl
      · exact hb.elim
      · exact hb.elim
      · obtain ⟨h1, h2, h3, h4, h5, h6⟩ := hb
        dsimp only
        rw [h3, h4, h5]
        split <;> rfl
  | succ g ih =>
    intro root b ix s s2 hr
    rw [get, get]
    split
    · rfl
    · have hb := loadChildren_rel (c := c) hr root (g + 1) ix b
      revert hb
      cases loadChildren c root (g + 1) ix b s <;> cases loadChildren c root (g + 1) ix b s2 <;> intro hb
      · rfl
      · exact hb.elim
      · exact hb.elim
      · obtain ⟨h1, h2, h3, h4, h5, h6⟩ := hb
        dsimp only
        rw [h1, h2, h3, h4, h5]
        split
        · rfl
        · split
          · exact ih _ _ _ _ _ h6
          · exact ih _ _ _ _ _ h6

theorem merkleProof_rel (key : Key) : ∀ (h : Nat) (root : Bytes) (b : Batch) (ix : Nat) (s s2 : St), Rel s s2 → (merkleProof c h root key b ix s2).map Prod.fst = (merkleProof c h root key b ix s).map Prod.fst := by
  intro h
  induction h with
  | zero =>
    intro root b ix s s2 hr
    rw [merkleProof, merkleProof]
    split
    · rfl
    · have hb := loadChildren_rel (c := c) hr root 0 ix b
      revert hb
      cases loadChildren c root 0 ix b s <;> cases loadChildren c root 0 ix b s2 <;> intro hb
      · rfl
      · exact hb.elim
      · exact hb.elim
      · obtain ⟨h1, h2, h3, h4, h5, h6⟩ := hb
        dsimp only
        rw [h3, h4, h5]
        split <;> rfl
  | succ g ih =>
    intro root b ix s s2 hr
    rw [merkleProof, merkleProof]
    split
    · rfl
    · have hb := loadChildren_rel (c := c) hr root (g + 1) ix b
      revert hb
      cases loadChildren c root (g + 1) ix b s <;> cases loadChildren c root (g + 1) ix b s2 <;> intro hb
      · rfl
      · exact hb.elim
      · exact hb.elim
      · rename_i q q2
        obtain ⟨h1, h2, h3, h4, h5, h6⟩ := hb
        dsimp only
        rw [h1, h2, h3, h4, h5]
        split
        · rfl
        · split
          · have := ih q.r q.batch (2 * q.i + 2) _ _ h6
            revert this
            cases merkleProof c g q.r key q.batch (2 * q.i + 2) q.st <;> cases merkleProof c g q.r key q.batch (2 * q.i + 2) q2.st <;> intro this
            · rfl
            · cases this
            · cases this
            · simp only [Option.map_some, Option.some.injEq] at this
              simp [this]
          · have := ih q.l q.batch (2 * q.i + 1) _ _ h6
            revert this
            cases merkleProof c g q.l key q.batch (2 * q.i + 1) q.st <;> cases merkleProof c g q.l key q.batch (2 * q.i + 1) q2.st <;> intro this
            · rfl
            · cases this
            · cases this
            · simp only [Option.map_some, Option.some.injEq] at this
              simp [this]

/-- A cached tree can be looked at with a DB that has only the lower batches. -/
theorem cached_look {t : Node} {tr : Trie} (h : Idle c Hp t tr) (hc : Cached c tr.st.live 256 t) {db' : Bytes → Option Bytes} (hdb : ∀ h' u, h' < c.lim → Sub 256 t h' u → db' (digest c.H h' u) = tr.st.db (digest c.H h' u)) :
    ∃ s2, Rel { tr.st with db := db' } s2 ∧ Look c Hp 256 0 tr.root t [] 0 s2 := by
  refine ⟨⟨tr.st.live, tr.st.live, [], db'⟩, ⟨rfl, rfl, fun d hd => ?_⟩, ⟨by omega, h.tok, h.rootOk, fun h => absurd rfl h, ?_, ?_⟩⟩
  · show tr.st.live d = tr.st.upd d
    rw [h.upd d]; exact hd
  · have := h.indb
    have hboth := allB_and hc this
    refine allB_mono (fun h' u hs hne hp => ?_) hboth
    by_cases hlim : c.lim ≤ h'
    · exact Or.inl (hp.1 hlim)
    · right
      show ∃ val, db' _ = _ ∧ _
      rw [hdb h' u (by omega) hs]
      exact hp.2
  · intro d b hb
    exact h.coh d b (Or.inl (by rcases hb with hb | hb <;> exact hb))

end Fpki.SmtStore
