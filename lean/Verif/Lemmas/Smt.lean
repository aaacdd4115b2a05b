import Verif.Model.Smt
import Verif.Lemmas.Bytes

namespace Fpki.Smt

/-! ## Specification vocabulary -/

/-- Keys strictly ascending (so also distinct). -/
def SortedKVs (kvs : KVs) : Prop := kvs.Pairwise (fun a b => bytesLt a.1 b.1 = true)

/-- Effect of an update on a key/value map, key by key. -/
def applyKVs (f : Key → Option Val) (kvs : KVs) (k : Key) : Option Val :=
  match kvs.lookup k with
  | some v => v
  | none => f k

/-- `k` is an `n`-bit key whose first `i` bits are given by `q`. -/
def InPre (n : Nat) (q : Nat → Bool) (i : Nat) (k : Key) : Prop :=
  8 * k.length = n ∧ ∀ j, j < i → bitIsSet k j = q j

/-- The prefix extended by one bit. -/
def ext (q : Nat → Bool) (i : Nat) (b : Bool) : Nat → Bool := fun j => if j = i then b else q j

/-- Well-formed subtree at depth `i`: every key lies below its position and every inner node has at
least two keys below it. -/
def WF (n : Nat) : Nat → (Nat → Bool) → Node → Prop
  | _, _, .empty => True
  | i, q, .leaf k _ => InPre n q i k
  | i, q, .node l r => i < n ∧ WF n (i + 1) (ext q i false) l ∧ WF n (i + 1) (ext q i true) r ∧
      ¬ (l = .empty ∧ r = .empty) ∧ ¬ (l = .empty ∧ r.isLeaf = true) ∧ ¬ (l.isLeaf = true ∧ r = .empty)

/-- Depth at which the search for `k` ends. -/
def depthOf (i : Nat) : Node → Key → Nat
  | .empty, _ => i
  | .leaf _ _, _ => i
  | .node l r, k => if bitIsSet k i then depthOf (i + 1) r k else depthOf (i + 1) l k

/-- The update deletes a present key `k` and also sets, among the keys sharing the position of `k`'s
leaf, one smaller and one larger key. -/
def MidDelete (i : Nat) (t : Node) (kvs : KVs) : Prop :=
  ∃ k, (k, none) ∈ kvs ∧ get i t k ≠ none ∧
    (∃ a ∈ kvs, bytesLt a.1 k = true ∧ SamePrefix (depthOf i t k) a.1 k) ∧
    (∃ b ∈ kvs, bytesLt k b.1 = true ∧ SamePrefix (depthOf i t k) b.1 k)

/-! ## Sorted lists -/

theorem SortedKVs.lookup_eq {kvs : KVs} (h : SortedKVs kvs) (k : Key) (v : Option Val) :
    kvs.lookup k = some v ↔ (k, v) ∈ kvs := by
  induction kvs with
  | nil => simp
  | cons p kvs ih =>
    obtain ⟨k0, v0⟩ := p
    obtain ⟨h1, h2⟩ := List.pairwise_cons.1 h
    rw [List.lookup_cons]
    by_cases hk : k = k0
    · subst hk
      simp only [BEq.rfl, if_true, Option.some.injEq, List.mem_cons, Prod.mk.injEq, true_and]
      constructor
      · intro h; exact Or.inl h.symm
      · rintro (h | h)
        · exact h.symm
        · have := h1 _ h
          simp [bytesLt_irrefl] at this
    · have : (k == k0) = false := by simp [hk]
      rw [this]
      simp only [Bool.false_eq_true, if_false, List.mem_cons, Prod.mk.injEq, hk, false_and, false_or]
      exact ih h2

theorem SortedKVs.lookup_none {kvs : KVs} (h : SortedKVs kvs) (k : Key) :
    kvs.lookup k = none ↔ ∀ v, (k, v) ∉ kvs := by
  constructor
  · intro h' v hv
    rw [(h.lookup_eq k v).2 hv] at h'; cases h'
  · intro h'
    cases hl : kvs.lookup k with
    | none => rfl
    | some v => exact absurd ((h.lookup_eq k v).1 hl) (h' v)

theorem SortedKVs.unique {kvs : KVs} (h : SortedKVs kvs) {k : Key} {v w : Option Val}
    (h1 : (k, v) ∈ kvs) (h2 : (k, w) ∈ kvs) : v = w := by
  have := ((h.lookup_eq k v).2 h1).symm.trans ((h.lookup_eq k w).2 h2)
  simpa using this

theorem SortedKVs.sublist {a b : KVs} (h : SortedKVs b) (hs : a.Sublist b) : SortedKVs a :=
  List.Pairwise.sublist hs h

/-! ## maybeAddShortcutToKV -/

theorem addLoop_skip_lt (sk : Key) (sv : Val) (as rest pre acc : KVs) (hi : Bool)
    (h : ∀ p ∈ as, bytesLt p.1 sk = true) :
    addLoop sk sv pre hi acc (as ++ rest) =
      addLoop sk sv (pre ++ as) (hi || !as.isEmpty) acc rest := by
  induction as generalizing pre hi with
  | nil => simp
  | cons p as ih =>
    obtain ⟨k, v⟩ := p
    have hk := h (k, v) (by simp)
    have hne : sk ≠ k := fun he => bytesLt_ne hk he.symm
    have hgt : bytesLt sk k = false := bytesLt_asymm hk
    have ih' := fun pre hi => ih pre hi (fun p hp => h p (by simp [hp]))
    simp only [List.cons_append, addLoop, if_neg hne, hk, hgt, Bool.and_true, Bool.and_false,
      Bool.false_eq_true, if_false]
    cases hi with
    | false =>
      simp only [Bool.not_false, if_true]
      rw [ih']; simp
    | true =>
      simp only [Bool.not_true, Bool.false_eq_true, if_false]
      rw [ih']; simp

theorem addLoop_skip_gt (sk : Key) (sv : Val) (rest pre acc : KVs)
    (h : ∀ p ∈ rest, bytesLt sk p.1 = true) : addLoop sk sv pre false acc rest = acc := by
  induction rest generalizing pre with
  | nil => rfl
  | cons p rest ih =>
    obtain ⟨k, v⟩ := p
    have hk := h (k, v) (by simp)
    have hne : sk ≠ k := bytesLt_ne hk
    have hlt : bytesLt k sk = false := bytesLt_asymm hk
    simp only [addLoop, if_neg hne, hlt, Bool.and_false, Bool.false_and, Bool.false_eq_true, if_false]
    exact ih _ (fun p hp => h p (by simp [hp]))

/-- Splitting a sorted list at a key. -/
theorem sorted_split (kvs : KVs) (h : SortedKVs kvs) (sk : Key) :
    ∃ as bs, kvs = as ++ bs ∧ (∀ p ∈ as, bytesLt p.1 sk = true) ∧
      ((∀ p ∈ bs, bytesLt sk p.1 = true) ∨
       ∃ v bs', bs = (sk, v) :: bs' ∧ ∀ p ∈ bs', bytesLt sk p.1 = true) := by
  induction kvs with
  | nil => exact ⟨[], [], rfl, by simp, Or.inl (by simp)⟩
  | cons p kvs ih =>
    obtain ⟨k, v⟩ := p
    obtain ⟨h1, h2⟩ := List.pairwise_cons.1 h
    by_cases hk : k = sk
    · subst hk
      exact ⟨[], (k, v) :: kvs, rfl, by simp, Or.inr ⟨v, kvs, rfl, h1⟩⟩
    · rcases bytesLt_total hk with hlt | hgt
      · obtain ⟨as, bs, h3, h4, h5⟩ := ih h2
        refine ⟨(k, v) :: as, bs, by rw [h3]; rfl, ?_, h5⟩
        intro p hp
        rcases List.mem_cons.1 hp with rfl | hp
        · exact hlt
        · exact h4 p hp
      · refine ⟨[], (k, v) :: kvs, rfl, by simp, Or.inl ?_⟩
        intro p hp
        rcases List.mem_cons.1 hp with rfl | hp
        · exact hgt
        · exact bytesLt_trans hgt (h1 p hp)

/-- What `maybeAddShortcutToKV` should compute, and does unless a deletion of the shortcut has keys
on both sides. -/
structure MergedKV (sk : Key) (sv : Val) (kvs r : KVs) : Prop where
  sorted : SortedKVs r
  mem_some : ∀ k v, (k, some v) ∈ r ↔
    (k, some v) ∈ kvs ∨ (k = sk ∧ v = sv ∧ ∀ w, (sk, w) ∉ kvs)
  mem_none : ∀ k, (k, none) ∈ r ↔ (k, none) ∈ kvs ∧ k ≠ sk

theorem sorted_insert {as bs : KVs} {sk : Key} {v : Option Val} (h : SortedKVs (as ++ bs))
    (ha : ∀ p ∈ as, bytesLt p.1 sk = true) (hb : ∀ p ∈ bs, bytesLt sk p.1 = true) :
    SortedKVs (as ++ (sk, v) :: bs) := by
  unfold SortedKVs at *
  rw [List.pairwise_append] at h ⊢
  refine ⟨h.1, List.pairwise_cons.2 ⟨hb, h.2.1⟩, ?_⟩
  intro p hp p' hp'
  rcases List.mem_cons.1 hp' with rfl | hp'
  · exact ha p hp
  · exact h.2.2 p hp p' hp'

theorem merged_insert {as bs : KVs} {sk : Key} {sv : Val} (h : SortedKVs (as ++ bs))
    (ha : ∀ p ∈ as, bytesLt p.1 sk = true) (hb : ∀ p ∈ bs, bytesLt sk p.1 = true) :
    MergedKV sk sv (as ++ bs) (as ++ (sk, some sv) :: bs) := by
  have hno : ∀ w, (sk, w) ∉ as ++ bs := by
    intro w hw
    rcases List.mem_append.1 hw with hw | hw
    · have := ha _ hw; rw [bytesLt_irrefl] at this; cases this
    · have := hb _ hw; rw [bytesLt_irrefl] at this; cases this
  refine ⟨sorted_insert h ha hb, ?_, ?_⟩
  · intro k v
    simp only [List.mem_append, List.mem_cons, Prod.mk.injEq, Option.some.injEq]
    constructor
    · rintro (h | ⟨rfl, rfl⟩ | h)
      · exact Or.inl (Or.inl h)
      · exact Or.inr ⟨rfl, rfl, fun w hw => hno w (List.mem_append.2 hw)⟩
      · exact Or.inl (Or.inr h)
    · rintro ((h | h) | ⟨rfl, rfl, _⟩)
      · exact Or.inl h
      · exact Or.inr (Or.inr h)
      · exact Or.inr (Or.inl ⟨rfl, rfl⟩)
  · intro k
    simp only [List.mem_append, List.mem_cons, Prod.mk.injEq, reduceCtorEq, and_false, false_or]
    constructor
    · intro h
      refine ⟨h, ?_⟩
      rintro rfl
      exact hno _ (List.mem_append.2 h)
    · exact fun h => h.1

theorem maybeAdd_merged (sk : Key) (sv : Val) (kvs : KVs) (h : SortedKVs kvs) (hne : kvs ≠ [])
    (hmid : (sk, none) ∈ kvs → ¬ ((∃ a ∈ kvs, bytesLt a.1 sk = true) ∧ ∃ b ∈ kvs, bytesLt sk b.1 = true)) :
    MergedKV sk sv kvs (maybeAdd sk sv kvs) := by
  obtain ⟨as, bs, rfl, ha, hb⟩ := sorted_split kvs h sk
  obtain ⟨last, hlast⟩ : ∃ p, (as ++ bs).getLast? = some p := by
    cases hh : (as ++ bs).getLast? with
    | some p => exact ⟨p, rfl⟩
    | none => rw [List.getLast?_eq_none_iff] at hh; exact absurd hh hne
  have hlastmem := List.mem_of_getLast? hlast
  obtain ⟨first, tl, hcons⟩ : ∃ p tl, as ++ bs = p :: tl := by
    cases hh : as ++ bs with
    | nil => exact absurd hh hne
    | cons p tl => exact ⟨p, tl, rfl⟩
  have hdef : maybeAdd sk sv (as ++ bs) =
      if bytesLt sk first.1 then (sk, some sv) :: (as ++ bs)
      else if bytesLt last.1 sk then as ++ bs ++ [(sk, some sv)]
      else addLoop sk sv [] false [] (as ++ bs) := by
    rw [hcons] at hlast ⊢
    unfold maybeAdd
    simp only [hlast]
  rw [hdef]
  have hfa : as ≠ [] → bytesLt first.1 sk = true := by
    intro hane
    cases as with
    | nil => exact absurd rfl hane
    | cons a as =>
      simp only [List.cons_append, List.cons.injEq] at hcons
      exact ha first (by simp [hcons.1])
  rcases hb with hb | ⟨v, bs', rfl, hb⟩
  · -- the shortcut's key is not in the list
    cases has : as with
    | nil =>
      subst has
      simp only [List.nil_append] at *
      have : bytesLt sk first.1 = true := hb first (by rw [hcons]; simp)
      rw [if_pos this]
      simpa using merged_insert (sv := sv) (as := []) (by simpa using h) (by simp) hb
    | cons a as' =>
      rw [← has]
      have h1 := hfa (by rw [has]; simp)
      rw [if_neg (by rw [bytesLt_asymm h1]; simp)]
      cases hbs : bs with
      | nil =>
        subst hbs
        simp only [List.append_nil] at *
        have : bytesLt last.1 sk = true := ha last hlastmem
        rw [if_pos this]
        simpa using merged_insert (sv := sv) (as := as) (bs := []) (by simpa using h) ha (by simp)
      | cons b bs' =>
        rw [← hbs]
        have hl : bytesLt sk last.1 = true := by
          apply hb
          rw [List.getLast?_append, hbs] at hlast
          have : (b :: bs').getLast? = some last := by
            cases hq : (b :: bs').getLast? with
            | none => simp at hq
            | some x => rw [hq] at hlast; simpa using hlast
          rw [hbs]
          exact List.mem_of_getLast? this
        rw [if_neg (by rw [bytesLt_asymm hl]; simp)]
        rw [addLoop_skip_lt _ _ _ _ _ _ _ ha]
        have he : as.isEmpty = false := by rw [has]; rfl
        rw [hbs] at hb
        obtain ⟨k, v⟩ := b
        have hk := hb (k, v) (by simp)
        simp only [hbs, addLoop, he, if_neg (bytesLt_ne hk), hk, Bool.not_false, Bool.or_true,
          Bool.not_true, Bool.false_and, Bool.false_eq_true, if_false, Bool.and_true, if_true,
          List.nil_append]
        rw [hbs] at h
        exact merged_insert h ha hb
  · -- the shortcut's key is in the list
    have hfirst : bytesLt sk first.1 = false := by
      cases has : as with
      | nil =>
        subst has
        simp only [List.nil_append, List.cons.injEq] at hcons
        rw [← hcons.1]; exact bytesLt_irrefl _
      | cons a as' => exact bytesLt_asymm (hfa (by rw [has]; simp))
    have hlst : bytesLt last.1 sk = false := by
      rw [List.getLast?_append] at hlast
      have : ((sk, v) :: bs').getLast? = some last := by
        cases hq : ((sk, v) :: bs').getLast? with
        | none => simp at hq
        | some x => rw [hq] at hlast; simpa using hlast
      rcases List.mem_cons.1 (List.mem_of_getLast? this) with rfl | hm
      · exact bytesLt_irrefl _
      · exact bytesLt_asymm (hb _ hm)
    rw [hfirst, hlst]
    simp only [Bool.false_eq_true, if_false]
    rw [addLoop_skip_lt _ _ _ _ _ _ _ ha]
    simp only [addLoop, if_true, List.nil_append]
    have hmem : (sk, v) ∈ as ++ (sk, v) :: bs' := by simp
    cases v with
    | some v =>
      simp only [Option.isSome_some, if_true]
      refine ⟨h, ?_, ?_⟩
      · intro k w
        constructor
        · exact Or.inl
        · rintro (h' | ⟨_, _, h'⟩)
          · exact h'
          · exact absurd hmem (h' _)
      · intro k
        constructor
        · intro h'
          refine ⟨h', ?_⟩
          rintro rfl
          have := h.unique h' hmem
          cases this
        · exact fun h' => h'.1
    | none =>
      simp only [Option.isSome_none, Bool.false_eq_true, if_false]
      have hres : addLoop sk sv (as ++ [(sk, none)]) (!as.isEmpty) (as ++ bs') bs' = as ++ bs' := by
        cases has : as with
        | nil => simpa using addLoop_skip_gt sk sv bs' [(sk, none)] bs' hb
        | cons a as' =>
          cases hbs : bs' with
          | nil => simp [addLoop]
          | cons b bs'' =>
            exfalso
            apply hmid hmem
            refine ⟨⟨a, by rw [has]; simp, ha a (by rw [has]; simp)⟩,
              ⟨b, by rw [hbs]; simp, hb b (by rw [hbs]; simp)⟩⟩
      simp only [Bool.false_or]
      rw [hres]
      have hs : SortedKVs (as ++ bs') := h.sublist (by
        apply List.Sublist.append_left
        exact List.sublist_cons_self _ _)
      have hno : ∀ w, (sk, w) ∉ as ++ bs' := by
        intro w hw
        rcases List.mem_append.1 hw with hw | hw
        · have := ha _ hw; rw [bytesLt_irrefl] at this; cases this
        · have := hb _ hw; rw [bytesLt_irrefl] at this; cases this
      refine ⟨hs, ?_, ?_⟩
      · intro k w
        constructor
        · intro h'
          left
          rcases List.mem_append.1 h' with h' | h' <;> simp [h']
        · rintro (h' | ⟨_, _, h'⟩)
          · simp only [List.mem_append, List.mem_cons, Prod.mk.injEq, reduceCtorEq, and_false,
              false_or] at h'
            exact List.mem_append.2 h'
          · exact absurd hmem (h' _)
      · intro k
        constructor
        · intro h'
          refine ⟨?_, ?_⟩
          · rcases List.mem_append.1 h' with h' | h' <;> simp [h']
          · rintro rfl; exact hno _ h'
        · rintro ⟨h', hk⟩
          simp only [List.mem_append, List.mem_cons, Prod.mk.injEq, hk, false_and, false_or] at h'
          exact List.mem_append.2 h'


/-! ## splitKeys -/

theorem mem_takeWhile_true {α} (p : α → Bool) (l : List α) : ∀ a ∈ l.takeWhile p, p a = true := by
  induction l with
  | nil => simp
  | cons x l ih =>
    intro a ha
    rw [List.takeWhile_cons] at ha
    by_cases hx : p x = true
    · rw [if_pos hx] at ha
      rcases List.mem_cons.1 ha with rfl | ha
      · exact hx
      · exact ih a ha
    · rw [if_neg hx] at ha; cases ha

theorem InPre.samePrefix {n : Nat} {q : Nat → Bool} {i : Nat} {a b : Key} (ha : InPre n q i a)
    (hb : InPre n q i b) : SamePrefix i a b := fun j hj => (ha.2 j hj).trans (hb.2 j hj).symm

theorem InPre.length_eq {n : Nat} {q : Nat → Bool} {i : Nat} {a b : Key} (ha : InPre n q i a)
    (hb : InPre n q i b) : a.length = b.length := by
  have := ha.1; have := hb.1; omega

theorem InPre.ext_iff {n : Nat} {q : Nat → Bool} {i : Nat} {k : Key} {b : Bool} :
    InPre n (ext q i b) (i + 1) k ↔ InPre n q i k ∧ bitIsSet k i = b := by
  constructor
  · rintro ⟨h1, h2⟩
    refine ⟨⟨h1, fun j hj => ?_⟩, ?_⟩
    · rw [h2 j (by omega)]; unfold ext; rw [if_neg (by omega)]
    · rw [h2 i (by omega)]; unfold ext; rw [if_pos rfl]
  · rintro ⟨⟨h1, h2⟩, h3⟩
    refine ⟨h1, fun j hj => ?_⟩
    unfold ext
    by_cases hji : j = i
    · subst hji; rw [if_pos rfl, h3]
    · rw [if_neg hji]; exact h2 j (by omega)

theorem dropWhile_bits (n : Nat) (q : Nat → Bool) (i : Nat) (kvs : KVs) (hs : SortedKVs kvs)
    (hp : ∀ p ∈ kvs, InPre n q i p.1) :
    ∀ p ∈ kvs.dropWhile (fun p => !bitIsSet p.1 i), bitIsSet p.1 i = true := by
  induction kvs with
  | nil => simp
  | cons x kvs ih =>
    obtain ⟨h1, h2⟩ := List.pairwise_cons.1 hs
    rw [List.dropWhile_cons]
    cases hx : bitIsSet x.1 i with
    | false =>
      simp only [Bool.not_false, if_true]
      exact ih h2 (fun p hp' => hp p (by simp [hp']))
    | true =>
      simp only [Bool.not_true, Bool.false_eq_true, if_false]
      intro p hp'
      rcases List.mem_cons.1 hp' with rfl | hp'
      · exact hx
      · exact lt_bit_mono ((hp x (by simp)).length_eq (hp p (by simp [hp'])))
          ((hp x (by simp)).samePrefix (hp p (by simp [hp']))) (h1 p hp') hx

structure SplitOk (i : Nat) (kvs : KVs) (s : KVs × KVs) : Prop where
  append : s.1 ++ s.2 = kvs
  left : ∀ p ∈ s.1, bitIsSet p.1 i = false
  right : ∀ p ∈ s.2, bitIsSet p.1 i = true

theorem splitKeys_ok (n : Nat) (q : Nat → Bool) (i : Nat) (kvs : KVs) (hs : SortedKVs kvs)
    (hp : ∀ p ∈ kvs, InPre n q i p.1) : SplitOk i kvs (splitKeys i kvs) := by
  refine ⟨List.takeWhile_append_dropWhile, ?_, dropWhile_bits n q i kvs hs hp⟩
  intro p hp'
  have := mem_takeWhile_true _ _ p hp'
  simpa using this

theorem lookup_append_of_not_mem {a b : KVs} {k : Key} (h : ∀ p ∈ a, p.1 ≠ k) :
    (a ++ b).lookup k = b.lookup k := by
  induction a with
  | nil => rfl
  | cons x a ih =>
    obtain ⟨k0, v0⟩ := x
    rw [List.cons_append, List.lookup_cons]
    have : (k == k0) = false := by
      have := h (k0, v0) (by simp)
      simp only [beq_eq_false_iff_ne, ne_eq]
      exact fun h' => this h'.symm
    rw [this]
    exact ih (fun p hp => h p (by simp [hp]))

theorem lookup_append_of_not_mem' {a b : KVs} {k : Key} (h : ∀ p ∈ b, p.1 ≠ k) :
    (a ++ b).lookup k = a.lookup k := by
  induction a with
  | nil =>
    simp only [List.nil_append, List.lookup_nil]
    have := lookup_append_of_not_mem (a := b) (b := []) h
    simpa using this
  | cons x a ih =>
    obtain ⟨k0, v0⟩ := x
    rw [List.cons_append, List.lookup_cons, List.lookup_cons, ih]

/-! ## update -/

/-- What a call of `update` guarantees. -/
structure Spec (n i : Nat) (q : Nat → Bool) (t : Node) (kvs : KVs) (res : Node × Bool) : Prop where
  wf : WF n i q res.1
  get : ∀ k, InPre n q i k → get i res.1 k = applyKVs (Smt.get i t) kvs k
  kept : res.2 = false → res.1 ≠ .empty ∧
    (res.1.isLeaf = true → t.isLeaf = true ∨ (t = .empty ∧ kvs.length = 1))

theorem join_true_spec {n i : Nat} {q : Nat → Bool} {l r : Node} (hi : i < n)
    (hl : WF n (i + 1) (ext q i false) l) (hr : WF n (i + 1) (ext q i true) r) :
    WF n i q (join true l r).1 ∧
    (∀ k, InPre n q i k → get i (join true l r).1 k = get i (.node l r) k) ∧
    ((join true l r).2 = false → (join true l r).1 ≠ .empty ∧ (join true l r).1.isLeaf = false) := by
  cases l with
  | empty =>
    cases r with
    | empty => simp [join, WF, get]
    | leaf k v =>
      have hk := InPre.ext_iff.1 hr
      refine ⟨hk.1, ?_, by simp [join]⟩
      intro k' _
      simp only [join, get, if_true]
      by_cases hkk : k = k'
      · subst hkk; simp [hk.2]
      · simp [hkk]
    | node a b =>
      refine ⟨?_, by simp [join], by simp [join, Node.isLeaf]⟩
      simp only [join, if_true]
      exact ⟨hi, hl, hr, by simp, by simp [Node.isLeaf], by simp [Node.isLeaf]⟩
  | leaf k v =>
    cases r with
    | empty =>
      have hk := InPre.ext_iff.1 hl
      refine ⟨hk.1, ?_, by simp [join]⟩
      intro k' _
      simp only [join, get, if_true]
      by_cases hkk : k = k'
      · subst hkk; simp [hk.2]
      · simp [hkk]
    | leaf k' v' =>
      refine ⟨?_, by simp [join], by simp [join, Node.isLeaf]⟩
      simp only [join, if_true]
      exact ⟨hi, hl, hr, by simp, by simp [Node.isLeaf], by simp [Node.isLeaf]⟩
    | node a b =>
      refine ⟨?_, by simp [join], by simp [join, Node.isLeaf]⟩
      simp only [join, if_true]
      exact ⟨hi, hl, hr, by simp, by simp [Node.isLeaf], by simp [Node.isLeaf]⟩
  | node a b =>
    refine ⟨?_, ?_, ?_⟩
    · simp only [join, WF, if_true]
      exact ⟨hi, hl, hr, by simp, by simp, by simp [Node.isLeaf]⟩
    · intro k _; simp [join]
    · simp [join, Node.isLeaf]

theorem applyKVs_left {i : Nat} {f : Key → Option Val} {kvs : KVs}
    {s : KVs × KVs} (hs : SplitOk i kvs s) {k : Key} (hk : bitIsSet k i = false) :
    applyKVs f kvs k = applyKVs f s.1 k := by
  unfold applyKVs
  rw [← hs.append, lookup_append_of_not_mem']
  rintro p hp rfl
  rw [hs.right p hp] at hk; cases hk

theorem applyKVs_right {i : Nat} {f : Key → Option Val} {kvs : KVs}
    {s : KVs × KVs} (hs : SplitOk i kvs s) {k : Key} (hk : bitIsSet k i = true) :
    applyKVs f kvs k = applyKVs f s.2 k := by
  unfold applyKVs
  rw [← hs.append, lookup_append_of_not_mem]
  rintro p hp rfl
  rw [hs.left p hp] at hk; cases hk


theorem applyKVs_nil (f : Key → Option Val) (k : Key) : applyKVs f [] k = f k := rfl

theorem get_node (i : Nat) (l r : Node) (k : Key) :
    get i (.node l r) k = if bitIsSet k i then get (i + 1) r k else get (i + 1) l k := rfl

theorem applyKVs_congr {f g : Key → Option Val} {kvs : KVs} {k : Key} (h : f k = g k) :
    applyKVs f kvs k = applyKVs g kvs k := by
  unfold applyKVs; rw [h]

/-- The children of a node under update: both empty (empty subtree, or its shortcut was taken out),
or those of a well-formed node. -/
def KidsOk (l r : Node) : Prop :=
  (l = .empty ∧ r = .empty) ∨
  (¬ (l = .empty ∧ r = .empty) ∧ ¬ (l = .empty ∧ r.isLeaf = true) ∧ ¬ (l.isLeaf = true ∧ r = .empty))

theorem join_spec {n i : Nat} {q : Nat → Bool} {d : Bool} {l r : Node} (hi : i < n)
    (hl : WF n (i + 1) (ext q i false) l) (hr : WF n (i + 1) (ext q i true) r)
    (hd : d = false → ¬ (l = .empty ∧ r = .empty) ∧ ¬ (l = .empty ∧ r.isLeaf = true) ∧
      ¬ (l.isLeaf = true ∧ r = .empty)) :
    WF n i q (join d l r).1 ∧
    (∀ k, InPre n q i k → get i (join d l r).1 k = get i (.node l r) k) ∧
    ((join d l r).2 = false → (join d l r).1 ≠ .empty ∧ (join d l r).1.isLeaf = false) := by
  cases d with
  | true => exact join_true_spec hi hl hr
  | false =>
    obtain ⟨h1, h2, h3⟩ := hd rfl
    refine ⟨?_, by simp [join], by simp [join, Node.isLeaf]⟩
    simp only [join, Bool.false_eq_true, if_false]
    exact ⟨hi, hl, hr, h1, h2, h3⟩

theorem MidDelete.right {i : Nat} {l r : Node} {kvs sub : KVs} (hsub : ∀ p ∈ sub, p ∈ kvs)
    (hbit : ∀ p ∈ sub, bitIsSet p.1 i = true) (h : MidDelete (i + 1) r sub) :
    MidDelete i (.node l r) kvs := by
  obtain ⟨k, h1, h2, ⟨a, ha, ha1, ha2⟩, b, hb, hb1, hb2⟩ := h
  have hk := hbit _ h1
  simp only at hk
  refine ⟨k, hsub _ h1, by rw [get_node, if_pos hk]; exact h2, ⟨a, hsub a ha, ha1, ?_⟩,
    b, hsub b hb, hb1, ?_⟩
  · simp only [depthOf, hk, if_true]; exact ha2
  · simp only [depthOf, hk, if_true]; exact hb2

theorem MidDelete.left {i : Nat} {l r : Node} {kvs sub : KVs} (hsub : ∀ p ∈ sub, p ∈ kvs)
    (hbit : ∀ p ∈ sub, bitIsSet p.1 i = false) (h : MidDelete (i + 1) l sub) :
    MidDelete i (.node l r) kvs := by
  obtain ⟨k, h1, h2, ⟨a, ha, ha1, ha2⟩, b, hb, hb1, hb2⟩ := h
  have hk := hbit _ h1
  simp only at hk
  refine ⟨k, hsub _ h1, by rw [get_node, hk]; exact h2, ⟨a, hsub a ha, ha1, ?_⟩,
    b, hsub b hb, hb1, ?_⟩
  · simp only [depthOf, hk]; exact ha2
  · simp only [depthOf, hk]; exact hb2

theorem branch_split {upd : Node → KVs → Node × Bool} {i : Nat} {l r : Node} {keys : KVs}
    (h : ¬ (l = .empty ∧ r = .empty ∧ keys.length = 1)) :
    branch upd i l r keys =
      let s := splitKeys i keys
      if s.1.isEmpty && !s.2.isEmpty then join (upd r keys).2 l (upd r keys).1
      else if !s.1.isEmpty && s.2.isEmpty then join (upd l keys).2 (upd l keys).1 r
      else join ((upd l s.1).2 || (upd r s.2).2) (upd l s.1).1 (upd r s.2).1 := by
  unfold branch
  split
  · simp at h
  · simp at h
  · rfl

theorem branch_spec {n i : Nat} {q : Nat → Bool} {upd : Node → KVs → Node × Bool} {l r : Node}
    {keys : KVs} (hi : i < n) (hl : WF n (i + 1) (ext q i false) l)
    (hr : WF n (i + 1) (ext q i true) r) (hkids : KidsOk l r) (hs : SortedKVs keys)
    (hne : keys ≠ []) (hp : ∀ p ∈ keys, InPre n q i p.1) (hmid : ¬ MidDelete i (.node l r) keys)
    (hupd : ∀ q' t kvs, WF n (i + 1) q' t → SortedKVs kvs → kvs ≠ [] →
      (∀ p ∈ kvs, InPre n q' (i + 1) p.1) → ¬ MidDelete (i + 1) t kvs →
      Spec n (i + 1) q' t kvs (upd t kvs)) :
    WF n i q (branch upd i l r keys).1 ∧
    (∀ k, InPre n q i k → get i (branch upd i l r keys).1 k = applyKVs (get i (.node l r)) keys k) ∧
    ((branch upd i l r keys).2 = false → (branch upd i l r keys).1 ≠ .empty ∧
      ((branch upd i l r keys).1.isLeaf = true → l = .empty ∧ r = .empty ∧ keys.length = 1)) := by
  by_cases hone : l = .empty ∧ r = .empty ∧ keys.length = 1
  · obtain ⟨rfl, rfl, hlen⟩ := hone
    obtain ⟨⟨k0, v0⟩, rfl⟩ := List.length_eq_one_iff.1 hlen
    cases v0 with
    | none =>
      refine ⟨trivial, ?_, by simp [branch]⟩
      intro k _
      simp only [branch, get, applyKVs, List.lookup_cons, List.lookup_nil]
      cases k == k0 <;> simp
    | some v =>
      refine ⟨by simpa [branch, WF] using hp (k0, some v) (by simp), ?_, by simp [branch]⟩
      intro k _
      simp only [branch, get, applyKVs, List.lookup_cons, List.lookup_nil]
      by_cases hk : k0 = k
      · subst hk; simp
      · have : (k == k0) = false := by simpa using fun h : k = k0 => hk h.symm
        simp [hk, this]
  · rw [branch_split hone]
    have hsp := splitKeys_ok n q i keys hs hp
    generalize splitKeys i keys = s at hsp ⊢
    obtain ⟨sl, sr⟩ := s
    simp only
    have hkeys : sl ++ sr = keys := hsp.append
    have hsl : SortedKVs sl := hs.sublist (by rw [← hkeys]; exact List.sublist_append_left _ _)
    have hsr : SortedKVs sr := hs.sublist (by rw [← hkeys]; exact List.sublist_append_right _ _)
    have hml : ∀ p ∈ sl, p ∈ keys := fun p hp => by rw [← hkeys]; simp [hp]
    have hmr : ∀ p ∈ sr, p ∈ keys := fun p hp => by rw [← hkeys]; simp [hp]
    have hpl : ∀ p ∈ sl, InPre n (ext q i false) (i + 1) p.1 := fun p h =>
      InPre.ext_iff.2 ⟨hp p (hml p h), hsp.left p h⟩
    have hpr : ∀ p ∈ sr, InPre n (ext q i true) (i + 1) p.1 := fun p h =>
      InPre.ext_iff.2 ⟨hp p (hmr p h), hsp.right p h⟩
    have hmidl : ¬ MidDelete (i + 1) l sl := fun h => hmid (h.left hml hsp.left)
    have hmidr : ¬ MidDelete (i + 1) r sr := fun h => hmid (h.right hmr hsp.right)
    have hL := fun h => hupd (ext q i false) l sl hl hsl h hpl hmidl
    have hR := fun h => hupd (ext q i true) r sr hr hsr h hpr hmidr
    by_cases he : sl = []
    · -- everything goes right
      subst he
      simp only [List.nil_append] at hkeys
      subst hkeys
      have hR := hR hne
      have hempty : sr.isEmpty = false := by simpa using hne
      simp only [List.isEmpty_nil, hempty, Bool.not_false, Bool.and_true, if_true]
      have hj := join_spec (d := (upd r sr).2) (q := q) hi hl hR.wf (by
        intro hd
        obtain ⟨h1, h2⟩ := hR.kept hd
        refine ⟨fun h => h1 h.2, ?_, fun h => h1 h.2⟩
        rintro ⟨h3, h4⟩
        rcases h2 h4 with h5 | ⟨h5, h6⟩
        · rcases hkids with ⟨_, h7⟩ | h7
          · rw [h7] at h5; cases h5
          · exact h7.2.1 ⟨h3, h5⟩
        · exact hone ⟨h3, h5, h6⟩)
      refine ⟨hj.1, ?_, fun hd => ⟨(hj.2.2 hd).1, fun h => by rw [(hj.2.2 hd).2] at h; cases h⟩⟩
      intro k hk
      rw [hj.2.1 k hk, get_node]
      cases hb : bitIsSet k i with
      | true =>
        simp only [if_true]
        rw [hR.get k (InPre.ext_iff.2 ⟨hk, hb⟩)]
        apply applyKVs_congr
        rw [get_node, if_pos hb]
      | false =>
        simp only [Bool.false_eq_true, if_false]
        rw [applyKVs_left hsp hb, applyKVs_nil, get_node, hb]
        simp
    · have hL := hL he
      have hle : sl.isEmpty = false := by simpa using he
      simp only [hle, Bool.false_and, Bool.false_eq_true, if_false, Bool.not_false, Bool.true_and]
      by_cases her : sr = []
      · subst her
        simp only [List.append_nil] at hkeys
        subst hkeys
        simp only [List.isEmpty_nil, if_true]
        have hj := join_spec (d := (upd l sl).2) (q := q) hi hL.wf hr (by
          intro hd
          obtain ⟨h1, h2⟩ := hL.kept hd
          refine ⟨fun h => h1 h.1, fun h => h1 h.1, ?_⟩
          rintro ⟨h4, h3⟩
          rcases h2 h4 with h5 | ⟨h5, h6⟩
          · rcases hkids with ⟨h7, _⟩ | h7
            · rw [h7] at h5; cases h5
            · exact h7.2.2 ⟨h5, h3⟩
          · exact hone ⟨h5, h3, h6⟩)
        refine ⟨hj.1, ?_, fun hd => ⟨(hj.2.2 hd).1, fun h => by rw [(hj.2.2 hd).2] at h; cases h⟩⟩
        intro k hk
        rw [hj.2.1 k hk, get_node]
        cases hb : bitIsSet k i with
        | false =>
          simp only [Bool.false_eq_true, if_false]
          rw [hL.get k (InPre.ext_iff.2 ⟨hk, hb⟩)]
          apply applyKVs_congr
          rw [get_node, hb]; simp
        | true =>
          simp only [if_true]
          rw [applyKVs_right hsp hb, applyKVs_nil, get_node, hb]
          simp
      · have hR := hR her
        have hre : sr.isEmpty = false := by simpa using her
        simp only [hre, Bool.false_eq_true, if_false]
        have hj := join_spec (d := (upd l sl).2 || (upd r sr).2) (q := q) hi hL.wf hR.wf (by
          intro hd
          rw [Bool.or_eq_false_iff] at hd
          have h1 := (hL.kept hd.1).1
          have h2 := (hR.kept hd.2).1
          exact ⟨fun h => h1 h.1, fun h => h1 h.1, fun h => h2 h.2⟩)
        refine ⟨hj.1, ?_, fun hd => ⟨(hj.2.2 hd).1, fun h => by rw [(hj.2.2 hd).2] at h; cases h⟩⟩
        intro k hk
        rw [hj.2.1 k hk, get_node]
        cases hb : bitIsSet k i with
        | false =>
          simp only [Bool.false_eq_true, if_false]
          rw [hL.get k (InPre.ext_iff.2 ⟨hk, hb⟩), applyKVs_left hsp hb]
          apply applyKVs_congr
          rw [get_node, hb]; simp
        | true =>
          simp only [if_true]
          rw [hR.get k (InPre.ext_iff.2 ⟨hk, hb⟩), applyKVs_right hsp hb]
          apply applyKVs_congr
          rw [get_node, hb]; simp

theorem MergedKV.lookup {sk : Key} {sv : Val} {kvs r : KVs} (hs : SortedKVs kvs)
    (h : MergedKV sk sv kvs r) (i : Nat) (k : Key) :
    applyKVs (get i .empty) r k = applyKVs (get i (.leaf sk sv)) kvs k := by
  unfold applyKVs
  cases hl : kvs.lookup k with
  | some w =>
    have hm := (hs.lookup_eq k w).1 hl
    cases w with
    | some v => rw [(h.sorted.lookup_eq k (some v)).2 ((h.mem_some k v).2 (Or.inl hm))]
    | none =>
      by_cases hk : k = sk
      · have : r.lookup k = none := by
          rw [h.sorted.lookup_none]
          intro v hv
          cases v with
          | none => exact ((h.mem_none k).1 hv).2 hk
          | some v =>
            rcases (h.mem_some k v).1 hv with h' | ⟨_, _, h'⟩
            · have := hs.unique hm h'; cases this
            · subst hk; exact h' _ hm
        rw [this]; rfl
      · rw [(h.sorted.lookup_eq k none).2 ((h.mem_none k).2 ⟨hm, hk⟩)]
  | none =>
    have hno := (hs.lookup_none k).1 hl
    simp only [get]
    by_cases hk : sk = k
    · subst hk
      rw [(h.sorted.lookup_eq sk (some sv)).2 ((h.mem_some sk sv).2 (Or.inr ⟨rfl, rfl, hno⟩))]
      simp
    · have : r.lookup k = none := by
        rw [h.sorted.lookup_none]
        intro v hv
        cases v with
        | none => exact hno _ ((h.mem_none k).1 hv).1
        | some v =>
          rcases (h.mem_some k v).1 hv with h' | ⟨h', _, _⟩
          · exact hno _ h'
          · exact hk h'.symm
      rw [this]; simp [hk]

theorem get_empty_kids (i : Nat) (k : Key) : get i (.node .empty .empty) k = get i .empty k := by
  simp [get]

theorem not_midDelete_empty {i : Nat} {kvs : KVs} : ¬ MidDelete i (.node .empty .empty) kvs := by
  rintro ⟨k, _, h, _⟩
  simp [get] at h

theorem update_spec (n : Nat) : ∀ (h i : Nat) (q : Nat → Bool) (t : Node) (kvs : KVs), i + h = n →
    WF n i q t → SortedKVs kvs → kvs ≠ [] → (∀ p ∈ kvs, InPre n q i p.1) →
    ¬ MidDelete i t kvs → Spec n i q t kvs (update n h t kvs) := by
  intro h
  induction h with
  | zero =>
    intro i q t kvs hih hwf hs hne hp _
    -- a single key
    obtain ⟨⟨k0, v0⟩, rest, rfl⟩ : ∃ p rest, kvs = p :: rest := by
      cases kvs with
      | nil => exact absurd rfl hne
      | cons p rest => exact ⟨p, rest, rfl⟩
    have heq : ∀ k k', InPre n q i k → InPre n q i k' → k = k' := by
      intro k k' h1 h2
      apply eq_of_bits (h1.length_eq h2)
      intro j hj
      exact h1.samePrefix h2 j (by have := h1.1; omega)
    have hrest : rest = [] := by
      cases rest with
      | nil => rfl
      | cons p' rest =>
        exfalso
        have h1 := (List.pairwise_cons.1 hs).1 p' (by simp)
        rw [heq _ _ (hp (k0, v0) (by simp)) (hp p' (by simp)), bytesLt_irrefl] at h1
        cases h1
    subst hrest
    have happ : ∀ k, InPre n q i k → applyKVs (Smt.get i t) [(k0, v0)] k = v0 := by
      intro k hk
      have := heq k k0 hk (hp (k0, v0) (by simp))
      subst this
      simp [applyKVs, List.lookup_cons]
    cases v0 with
    | none =>
      refine ⟨trivial, ?_, by simp [update]⟩
      intro k hk
      rw [happ k hk]; rfl
    | some v =>
      refine ⟨by simpa [update, WF] using hp (k0, some v) (by simp), ?_, ?_⟩
      · intro k hk
        rw [happ k hk, heq k k0 hk (hp (k0, some v) (by simp))]
        simp [update, Smt.get]
      · intro _
        refine ⟨by simp [update], fun _ => ?_⟩
        cases t with
        | empty => exact Or.inr ⟨rfl, rfl⟩
        | leaf _ _ => exact Or.inl rfl
        | node l r => have := hwf.1; omega
  | succ h ih =>
    intro i q t kvs hih hwf hs hne hp hmid
    have hi : i < n := by omega
    have hni : n - (h + 1) = i := by omega
    have hupd := fun q' t' kvs' => ih (i + 1) q' t' kvs' (by omega)
    cases t with
    | empty =>
      obtain ⟨p0, rest, rfl⟩ : ∃ p rest, kvs = p :: rest := by
        cases kvs with
        | nil => exact absurd rfl hne
        | cons p rest => exact ⟨p, rest, rfl⟩
      have hb := branch_spec (q := q) (l := .empty) (r := .empty) hi trivial trivial
        (Or.inl ⟨rfl, rfl⟩) hs hne hp not_midDelete_empty hupd
      simp only [update, hni]
      refine ⟨hb.1, ?_, fun hd => ⟨(hb.2.2 hd).1, fun hl => Or.inr ⟨rfl, ((hb.2.2 hd).2 hl).2.2⟩⟩⟩
      intro k hk
      rw [hb.2.1 k hk]
      exact applyKVs_congr (get_empty_kids i k)
    | node l r =>
      obtain ⟨p0, rest, rfl⟩ : ∃ p rest, kvs = p :: rest := by
        cases kvs with
        | nil => exact absurd rfl hne
        | cons p rest => exact ⟨p, rest, rfl⟩
      obtain ⟨_, hwl, hwr, hc⟩ := hwf
      have hb := branch_spec (q := q) hi hwl hwr (Or.inr hc) hs hne hp hmid hupd
      simp only [update, hni]
      refine ⟨hb.1, hb.2.1, fun hd => ⟨(hb.2.2 hd).1, fun hl => ?_⟩⟩
      have := (hb.2.2 hd).2 hl
      exact absurd ⟨this.1, this.2.1⟩ hc.1
    | leaf sk sv =>
      have hm : MergedKV sk sv kvs (maybeAdd sk sv kvs) := by
        apply maybeAdd_merged sk sv kvs hs hne
        rintro hdel ⟨⟨a, ha, ha1⟩, b, hb, hb1⟩
        apply hmid
        refine ⟨sk, hdel, by simp [get], ⟨a, ha, ha1, ?_⟩, b, hb, hb1, ?_⟩
        · exact (hp a ha).samePrefix hwf
        · exact (hp b hb).samePrefix hwf
      obtain ⟨p0, rest, rfl⟩ : ∃ p rest, kvs = p :: rest := by
        cases kvs with
        | nil => exact absurd rfl hne
        | cons p rest => exact ⟨p, rest, rfl⟩
      simp only [update, hni]
      by_cases hkeys : maybeAdd sk sv (p0 :: rest) = []
      · rw [hkeys] at hm ⊢
        simp only [List.isEmpty_nil, if_true]
        refine ⟨trivial, ?_, by simp⟩
        intro k hk
        rw [← hm.lookup hs i k]; rfl
      · have hkeys' : (maybeAdd sk sv (p0 :: rest)).isEmpty = false := by simpa using hkeys
        rw [hkeys']
        simp only [Bool.false_eq_true, if_false]
        have hpm : ∀ p ∈ maybeAdd sk sv (p0 :: rest), InPre n q i p.1 := by
          rintro ⟨k, v⟩ hk
          cases v with
          | none => exact hp (k, none) ((hm.mem_none k).1 hk).1
          | some v =>
            rcases (hm.mem_some k v).1 hk with h' | ⟨rfl, _, _⟩
            · exact hp (k, some v) h'
            · exact hwf
        have hb := branch_spec (q := q) (l := .empty) (r := .empty) hi trivial trivial
          (Or.inl ⟨rfl, rfl⟩) hm.sorted hkeys hpm not_midDelete_empty hupd
        refine ⟨hb.1, ?_, fun hd => ⟨(hb.2.2 hd).1, fun _ => Or.inl rfl⟩⟩
        intro k hk
        rw [hb.2.1 k hk, applyKVs_congr (get_empty_kids i k)]
        exact hm.lookup hs i k

end Fpki.Smt
