import Verif.Lemmas.Smt

/-!
# Histories of updates, canonical trees
-/
namespace Fpki.Smt

/-! ## Specification vocabulary -/

/-- The tree after a history of updates of the empty trie. -/
def run (n : Nat) (hist : List KVs) : Node := hist.foldl (updateRoot n) .empty

/-- The key/value map after the same history, by definition of a map. -/
def mapAfter (hist : List KVs) : Key → Option Val := hist.foldl applyKVs (fun _ => none)

/-- A batch as `Update` requires it: sorted distinct keys of `n` bits. -/
def ValidBatch (n : Nat) (kvs : KVs) : Prop := SortedKVs kvs ∧ ∀ p ∈ kvs, 8 * p.1.length = n

/-- A deleted key is the smallest or the largest key of its batch. (In particular: batches without
deletions and deletions of a single key.) -/
def EdgeDeletes (kvs : KVs) : Prop :=
  ∀ d ∈ kvs, d.2 = none →
    (∀ p ∈ kvs, bytesLt p.1 d.1 = false) ∨ (∀ p ∈ kvs, bytesLt d.1 p.1 = false)

def ValidHist (n : Nat) (hist : List KVs) : Prop := ∀ kvs ∈ hist, ValidBatch n kvs

def EdgeHist (hist : List KVs) : Prop := ∀ kvs ∈ hist, EdgeDeletes kvs

instance (kvs : KVs) : Decidable (SortedKVs kvs) := by unfold SortedKVs; infer_instance
instance (n : Nat) (kvs : KVs) : Decidable (ValidBatch n kvs) := by unfold ValidBatch; infer_instance
instance (kvs : KVs) : Decidable (EdgeDeletes kvs) := by unfold EdgeDeletes; infer_instance
instance (n : Nat) (hist : List KVs) : Decidable (ValidHist n hist) := by
  unfold ValidHist; infer_instance
instance (hist : List KVs) : Decidable (EdgeHist hist) := by unfold EdgeHist; infer_instance

/-! ## Lemmas -/

/-- Prefix of length 0: any. -/
def noPrefix : Nat → Bool := fun _ => false

theorem inPre_zero {n : Nat} {q : Nat → Bool} {k : Key} : InPre n q 0 k ↔ 8 * k.length = n :=
  ⟨fun h => h.1, fun h => ⟨h, fun j hj => by omega⟩⟩

theorem EdgeDeletes.not_mid {kvs : KVs} (h : EdgeDeletes kvs) (i : Nat) (t : Node) :
    ¬ MidDelete i t kvs := by
  rintro ⟨k, h1, _, ⟨a, ha, ha1, _⟩, b, hb, hb1, _⟩
  rcases h (k, none) h1 rfl with h2 | h2
  · rw [h2 a ha] at ha1; cases ha1
  · rw [h2 b hb] at hb1; cases hb1

/-- One update of a well-formed tree. -/
theorem updateRoot_spec (n : Nat) (t : Node) (kvs : KVs) (hwf : WF n 0 noPrefix t)
    (hv : ValidBatch n kvs) (hm : ¬ MidDelete 0 t kvs) :
    WF n 0 noPrefix (updateRoot n t kvs) ∧
    ∀ k, 8 * k.length = n → get 0 (updateRoot n t kvs) k = applyKVs (get 0 t) kvs k := by
  unfold updateRoot
  by_cases he : kvs = []
  · subst he
    exact ⟨hwf, fun k _ => rfl⟩
  · have : kvs.isEmpty = false := by simpa using he
    rw [this]
    simp only [Bool.false_eq_true, if_false]
    have hs := update_spec n n 0 noPrefix t kvs (by omega) hwf hv.1 he
      (fun p hp => inPre_zero.2 (hv.2 p hp)) hm
    exact ⟨hs.wf, fun k hk => hs.get k (inPre_zero.2 hk)⟩

theorem run_append (n : Nat) (hist : List KVs) (kvs : KVs) :
    run n (hist ++ [kvs]) = updateRoot n (run n hist) kvs := by
  simp [run]

theorem mapAfter_append (hist : List KVs) (kvs : KVs) :
    mapAfter (hist ++ [kvs]) = applyKVs (mapAfter hist) kvs := by
  simp [mapAfter]

/-- Histories where no step deletes between two neighbours. -/
inductive GoodHist (n : Nat) : List KVs → Prop
  | nil : GoodHist n []
  | snoc {hist : List KVs} {kvs : KVs} : GoodHist n hist → ValidBatch n kvs →
      ¬ MidDelete 0 (run n hist) kvs → GoodHist n (hist ++ [kvs])

theorem GoodHist.spec {n : Nat} {hist : List KVs} (h : GoodHist n hist) :
    WF n 0 noPrefix (run n hist) ∧
    ∀ k, 8 * k.length = n → get 0 (run n hist) k = mapAfter hist k := by
  induction h with
  | nil => exact ⟨trivial, fun _ _ => rfl⟩
  | snoc _ hv hm ih =>
    rw [run_append, mapAfter_append]
    have hs := updateRoot_spec n _ _ ih.1 hv hm
    refine ⟨hs.1, fun k hk => ?_⟩
    rw [hs.2 k hk]
    exact applyKVs_congr (ih.2 k hk)

theorem goodHist_of_edge {n : Nat} {hist : List KVs} (hv : ValidHist n hist) (he : EdgeHist hist) :
    GoodHist n hist := by
  have : ∀ (rest done : List KVs), GoodHist n done → (∀ kvs ∈ rest, ValidBatch n kvs ∧ EdgeDeletes kvs) →
      GoodHist n (done ++ rest) := by
    intro rest
    induction rest with
    | nil => intro done hd _; simpa using hd
    | cons kvs rest ih =>
      intro done hd hr
      have h1 := hr kvs (by simp)
      have := ih (done ++ [kvs]) (.snoc hd h1.1 (h1.2.not_mid _ _)) (fun k hk => hr k (by simp [hk]))
      simpa using this
  have h := this hist [] .nil (fun kvs hk => ⟨hv kvs hk, he kvs hk⟩)
  simpa using h

/-! ### Canonical trees -/

theorem WF.has_key {n : Nat} {i : Nat} {q : Nat → Bool} {t : Node} (h : WF n i q t) (hne : t ≠ .empty) :
    ∃ k, InPre n q i k ∧ get i t k ≠ none := by
  induction t generalizing i q with
  | empty => exact absurd rfl hne
  | leaf k v => exact ⟨k, h, by simp [get]⟩
  | node l r ihl ihr =>
    obtain ⟨_, hl, hr, hc, _, _⟩ := h
    by_cases hle : l = .empty
    · have hre : r ≠ .empty := fun hre => hc ⟨hle, hre⟩
      obtain ⟨k, hk, hg⟩ := ihr hr hre
      have hk := InPre.ext_iff.1 hk
      exact ⟨k, hk.1, by rw [get_node, if_pos hk.2]; exact hg⟩
    · obtain ⟨k, hk, hg⟩ := ihl hl hle
      have hk := InPre.ext_iff.1 hk
      exact ⟨k, hk.1, by rw [get_node, hk.2]; exact hg⟩

theorem WF.two_keys {n : Nat} {i : Nat} {q : Nat → Bool} {t : Node} (h : WF n i q t)
    (hne : t ≠ .empty) (hnl : t.isLeaf = false) :
    ∃ a b, a ≠ b ∧ InPre n q i a ∧ InPre n q i b ∧ get i t a ≠ none ∧ get i t b ≠ none := by
  induction t generalizing i q with
  | empty => exact absurd rfl hne
  | leaf => cases hnl
  | node l r ihl ihr =>
    obtain ⟨_, hl, hr, hc1, hc2, hc3⟩ := h
    by_cases hle : l = .empty
    · obtain ⟨x, y, hxy, hx, hy, hgx, hgy⟩ := ihr hr (fun h => hc1 ⟨hle, h⟩)
        (by cases hb : r.isLeaf with
            | false => rfl
            | true => exact absurd ⟨hle, hb⟩ hc2)
      have hx := InPre.ext_iff.1 hx
      have hy := InPre.ext_iff.1 hy
      exact ⟨x, y, hxy, hx.1, hy.1, by rw [get_node, if_pos hx.2]; exact hgx,
        by rw [get_node, if_pos hy.2]; exact hgy⟩
    · by_cases hre : r = .empty
      · obtain ⟨x, y, hxy, hx, hy, hgx, hgy⟩ := ihl hl hle
          (by cases hb : l.isLeaf with
              | false => rfl
              | true => exact absurd ⟨hb, hre⟩ hc3)
        have hx := InPre.ext_iff.1 hx
        have hy := InPre.ext_iff.1 hy
        exact ⟨x, y, hxy, hx.1, hy.1, by rw [get_node, hx.2]; exact hgx,
          by rw [get_node, hy.2]; exact hgy⟩
      · obtain ⟨x, hx, hgx⟩ := hl.has_key hle
        obtain ⟨y, hy, hgy⟩ := hr.has_key hre
        have hx := InPre.ext_iff.1 hx
        have hy := InPre.ext_iff.1 hy
        refine ⟨x, y, ?_, hx.1, hy.1, by rw [get_node, hx.2]; exact hgx,
          by rw [get_node, if_pos hy.2]; exact hgy⟩
        rintro rfl
        have := hx.2.symm.trans hy.2
        cases this

/-- A well-formed tree is determined by its content. -/
theorem WF.unique {n : Nat} : ∀ {t u : Node} {i : Nat} {q : Nat → Bool}, WF n i q t → WF n i q u →
    (∀ k, InPre n q i k → get i t k = get i u k) → t = u := by
  intro t
  induction t with
  | empty =>
    intro u i q _ hu hg
    by_cases h : u = .empty
    · exact h.symm
    · obtain ⟨k, hk, hne⟩ := hu.has_key h
      exact absurd (hg k hk).symm hne
  | leaf k v =>
    intro u i q ht hu hg
    cases u with
    | empty => have := hg k ht; simp [get] at this
    | leaf k' v' =>
      have h1 := hg k ht
      simp only [get, if_true] at h1
      by_cases hk : k' = k
      · subst hk; simpa using h1
      · rw [if_neg hk] at h1; cases h1
    | node l r =>
      obtain ⟨a, b, hab, ha, hb, hga, hgb⟩ := hu.two_keys (by simp) rfl
      exfalso
      have h1 := hg a ha
      have h2 := hg b hb
      rw [← h1] at hga
      rw [← h2] at hgb
      simp only [get] at hga hgb
      by_cases hka : k = a
      · by_cases hkb : k = b
        · exact hab (hka.symm.trans hkb)
        · simp [hkb] at hgb
      · simp [hka] at hga
  | node l r ihl ihr =>
    intro u i q ht hu hg
    cases u with
    | empty =>
      obtain ⟨k, hk, hne⟩ := ht.has_key (by simp)
      exact absurd (hg k hk) hne
    | leaf k v =>
      obtain ⟨a, b, hab, ha, hb, hga, hgb⟩ := ht.two_keys (by simp) rfl
      exfalso
      have h1 := hg a ha
      have h2 := hg b hb
      rw [h1] at hga
      rw [h2] at hgb
      simp only [get] at hga hgb
      by_cases hka : k = a
      · by_cases hkb : k = b
        · exact hab (hka.symm.trans hkb)
        · simp [hkb] at hgb
      · simp [hka] at hga
    | node l' r' =>
      have hl := ihl ht.2.1 hu.2.1 (fun k hk => by
        have hk' := InPre.ext_iff.1 hk
        have := hg k hk'.1
        rw [get_node, get_node, hk'.2] at this
        simpa using this)
      have hr := ihr ht.2.2.1 hu.2.2.1 (fun k hk => by
        have hk' := InPre.ext_iff.1 hk
        have := hg k hk'.1
        rw [get_node, get_node, hk'.2] at this
        simpa using this)
      rw [hl, hr]


/-! ### No node with two empty children -/

/-- No inner node has two empty children. -/
def NoHole : Node → Prop
  | .empty => True
  | .leaf _ _ => True
  | .node l r => ¬ (l = .empty ∧ r = .empty) ∧ NoHole l ∧ NoHole r

theorem join_noHole {d : Bool} {l r : Node} (hl : NoHole l) (hr : NoHole r)
    (hd : d = false → ¬ (l = .empty ∧ r = .empty)) :
    NoHole (join d l r).1 ∧ ((join d l r).2 = false → (join d l r).1 ≠ .empty) := by
  unfold join
  cases d with
  | false =>
    simp only [Bool.false_eq_true, if_false]
    exact ⟨⟨hd rfl, hl, hr⟩, by simp⟩
  | true =>
    simp only [if_true]
    split
    · exact ⟨trivial, by simp⟩
    · exact ⟨trivial, by simp⟩
    · exact ⟨trivial, by simp⟩
    · rename_i h1 _ _
      refine ⟨⟨?_, hl, hr⟩, by simp⟩
      rintro ⟨rfl, rfl⟩
      exact h1 rfl rfl

theorem split_nonempty (i : Nat) (kvs : KVs) (h : kvs ≠ []) :
    ¬ ((splitKeys i kvs).1 = [] ∧ (splitKeys i kvs).2 = []) := by
  rintro ⟨h1, h2⟩
  have : (splitKeys i kvs).1 ++ (splitKeys i kvs).2 = kvs := List.takeWhile_append_dropWhile
  rw [h1, h2] at this
  exact h this.symm

theorem branch_noHole {upd : Node → KVs → Node × Bool} (i : Nat) {l r : Node} {keys : KVs}
    (hl : NoHole l) (hr : NoHole r) (hne : keys ≠ [])
    (hu : ∀ t kvs, NoHole t → kvs ≠ [] → NoHole (upd t kvs).1 ∧ ((upd t kvs).2 = false → (upd t kvs).1 ≠ .empty)) :
    NoHole (branch upd i l r keys).1 ∧
      ((branch upd i l r keys).2 = false → (branch upd i l r keys).1 ≠ .empty) := by
  unfold branch
  split
  · exact ⟨trivial, by simp⟩
  · exact ⟨trivial, by simp⟩
  · have h1 := split_nonempty i keys hne
    generalize splitKeys i keys = s at h1 ⊢
    obtain ⟨sl, sr⟩ := s
    simp only at h1 ⊢
    cases sl with
    | nil =>
      cases sr with
      | nil => exact absurd ⟨rfl, rfl⟩ h1
      | cons b sr =>
        simp only [List.isEmpty_nil, List.isEmpty_cons, Bool.not_false, Bool.and_true, if_true]
        have := hu r keys hr hne
        exact join_noHole hl this.1 (fun hd h => this.2 hd h.2)
    | cons a sl =>
      cases sr with
      | nil =>
        simp only [List.isEmpty_nil, List.isEmpty_cons, Bool.not_false, Bool.and_true, if_true,
          Bool.false_and, Bool.false_eq_true, if_false, Bool.not_true]
        have := hu l keys hl hne
        exact join_noHole this.1 hr (fun hd h => this.2 hd h.1)
      | cons b sr =>
        simp only [List.isEmpty_cons, Bool.false_and, Bool.and_false, Bool.false_eq_true, if_false]
        have h2 := hu l (a :: sl) hl (by simp)
        have h3 := hu r (b :: sr) hr (by simp)
        refine join_noHole h2.1 h3.1 (fun hd h => ?_)
        rw [Bool.or_eq_false_iff] at hd
        exact h2.2 hd.1 h.1

theorem update_noHole (n : Nat) : ∀ (h : Nat) (t : Node) (kvs : KVs), NoHole t → kvs ≠ [] →
    NoHole (update n h t kvs).1 ∧ ((update n h t kvs).2 = false → (update n h t kvs).1 ≠ .empty) := by
  intro h
  induction h with
  | zero =>
    intro t kvs _ hne
    match kvs with
    | [] => exact absurd rfl hne
    | (_, none) :: _ => simp [update, NoHole]
    | (k, some v) :: _ => simp [update, NoHole]
  | succ h ih =>
    intro t kvs ht hne
    match kvs with
    | [] => exact absurd rfl hne
    | p :: kvs =>
      cases t with
      | empty =>
        simp only [update]
        exact branch_noHole (l := .empty) (r := .empty) _ trivial trivial hne ih
      | node l r =>
        simp only [update]
        exact branch_noHole _ ht.2.1 ht.2.2 hne ih
      | leaf sk sv =>
        simp only [update]
        by_cases he : (maybeAdd sk sv (p :: kvs)).isEmpty = true
        · rw [if_pos he]; exact ⟨trivial, by simp⟩
        · rw [if_neg he]
          exact branch_noHole (l := .empty) (r := .empty) _ trivial trivial (by simpa using he) ih

theorem run_noHole (n : Nat) (hist : List KVs) : NoHole (run n hist) := by
  have : ∀ (l : List KVs) (t : Node), NoHole t → NoHole (l.foldl (updateRoot n) t) := by
    intro l
    induction l with
    | nil => intro t ht; exact ht
    | cons kvs l ih =>
      intro t ht
      rw [List.foldl_cons]
      apply ih
      unfold updateRoot
      by_cases he : kvs.isEmpty = true
      · rw [if_pos he]; exact ht
      · rw [if_neg he]
        exact (update_noHole n n t kvs ht (by simpa using he)).1
  exact this hist .empty trivial

end Fpki.Smt
