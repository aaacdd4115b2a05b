import Verif.Model.CtSize
import Verif.Props.Ingest

/-!
# C95: recordctsize tells the map server where to go on
-/
namespace Fpki.CtSize

open Fpki.Ingest Fpki.Journal

/-! ## Specification -/

/-- Walking along the parts of a path from a directory, given as the list of names on the way to it, the last first. The parent of the top is the top. -/
def walk : List Str → List Str → List Str
  | cwd, [] => cwd
  | cwd, c :: cs => if c = [] ∨ c = ['.'] then walk cwd cs else if c = ['.', '.'] then walk cwd.tail cs else walk (c :: cwd) cs

/-- The directory that a path denotes for a process in the directory `cwd` (without symbolic links). -/
def place (cwd : List Str) (p : Str) : List Str := walk (if p.head? = some '/' then [] else cwd) (splitSlash p)

/-- An ordinary name of a directory. -/
def Name (n : Str) : Prop := n ≠ [] ∧ n ≠ ['.'] ∧ n ≠ ['.', '.'] ∧ '/' ∉ n

/-- The name of the directory for a log with this URL: slashes cannot be part of a name, underscores are written instead. -/
def dirNameOf (url : Str) : Str := url.map (fun c => if c = '/' then '_' else c)

/-! ## Paths -/

theorem splitSlash_ne_nil (s : Str) : splitSlash s ≠ [] := by
  cases s with
  | nil => simp [splitSlash]
  | cons c s =>
    unfold splitSlash
    split
    · simp
    · split <;> simp

theorem splitSlash_noslash (s : Str) : ∀ x ∈ splitSlash s, '/' ∉ x := by
  induction s with
  | nil => simp [splitSlash]
  | cons c s ih =>
    unfold splitSlash
    split
    · intro x hx
      rcases List.mem_cons.1 hx with rfl | hx
      · simp
      · exact ih x hx
    · rename_i hc
      split
      · rename_i h; exact absurd h (splitSlash_ne_nil s)
      · rename_i y ys h
        intro x hx
        rcases List.mem_cons.1 hx with rfl | hx
        · intro hm
          rcases List.mem_cons.1 hm with hm | hm
          · exact hc hm.symm
          · exact ih y (by rw [h]; simp) hm
        · exact ih x (by rw [h]; simp [hx])

/-- A character put before the first part. -/
def consHead (c : Char) : List Str → List Str
  | [] => [[c]]
  | x :: xs => (c :: x) :: xs

theorem splitSlash_cons (c : Char) (s : Str) : splitSlash (c :: s) = if c = '/' then [] :: splitSlash s else consHead c (splitSlash s) := by
  conv => lhs; unfold splitSlash
  by_cases hc : c = '/'
  · rw [if_pos hc, if_pos hc]
  · rw [if_neg hc, if_neg hc]
    cases splitSlash s <;> rfl

theorem splitSlash_append (a b : Str) : splitSlash (a ++ '/' :: b) = splitSlash a ++ splitSlash b := by
  induction a with
  | nil => simp [splitSlash]
  | cons c a ih =>
    show splitSlash (c :: (a ++ '/' :: b)) = _
    rw [splitSlash_cons, splitSlash_cons, ih]
    by_cases hc : c = '/'
    · rw [if_pos hc, if_pos hc]; rfl
    · rw [if_neg hc, if_neg hc]
      cases h : splitSlash a with
      | nil => exact absurd h (splitSlash_ne_nil a)
      | cons y ys => rfl

theorem splitSlash_single (s : Str) (h : '/' ∉ s) : splitSlash s = [s] := by
  induction s with
  | nil => rfl
  | cons c s ih =>
    unfold splitSlash
    rw [if_neg (fun e => h (by rw [e]; simp)), ih (fun hm => h (List.mem_cons_of_mem _ hm))]

theorem split_join : ∀ cs : List Str, cs ≠ [] → (∀ x ∈ cs, '/' ∉ x) → splitSlash (joinSlash cs) = cs := by
  intro cs
  induction cs with
  | nil => intro h; exact absurd rfl h
  | cons x xs ih =>
    intro _ hs
    cases xs with
    | nil => exact splitSlash_single x (hs x (by simp))
    | cons y ys =>
      show splitSlash (x ++ '/' :: joinSlash (y :: ys)) = _
      rw [splitSlash_append, splitSlash_single x (hs x (by simp)), ih (by simp) (fun z hz => hs z (List.mem_cons_of_mem _ hz))]
      rfl

theorem walk_cons (cwd : List Str) (c : Str) (cs : List Str) : walk cwd (c :: cs) = if c = [] ∨ c = ['.'] then walk cwd cs else if c = ['.', '.'] then walk cwd.tail cs else walk (c :: cwd) cs := rfl

theorem walk_append (a : List Str) : ∀ (cwd b : List Str), walk cwd (a ++ b) = walk (walk cwd a) b := by
  induction a with
  | nil => intro cwd b; rfl
  | cons c a ih =>
    intro cwd b
    show walk cwd (c :: (a ++ b)) = _
    rw [walk_cons, walk_cons]
    by_cases h1 : c = [] ∨ c = ['.']
    · rw [if_pos h1, if_pos h1]; exact ih _ _
    · rw [if_neg h1, if_neg h1]
      by_cases h2 : c = ['.', '.']
      · rw [if_pos h2, if_pos h2]; exact ih _ _
      · rw [if_neg h2, if_neg h2]; exact ih _ _

theorem walk_name {c : Str} (h : Name c) (cwd cs : List Str) : walk cwd (c :: cs) = walk (c :: cwd) cs := by
  conv => lhs; unfold walk
  rw [if_neg (by rintro (h1 | h1); exact h.1 h1; exact h.2.1 h1), if_neg h.2.2.1]

theorem walk_up (cwd cs : List Str) : walk cwd (['.', '.'] :: cs) = walk cwd.tail cs := by
  conv => lhs; unfold walk
  rw [if_neg (by decide), if_pos rfl]

theorem walk_skip {c : Str} (h : c = [] ∨ c = ['.']) (cwd cs : List Str) : walk cwd (c :: cs) = walk cwd cs := by
  conv => lhs; unfold walk
  rw [if_pos h]

theorem walk_names : ∀ (names cwd : List Str), (∀ n ∈ names, Name n) → walk cwd names = names.reverse ++ cwd := by
  intro names
  induction names with
  | nil => intro cwd _; rfl
  | cons n ns ih =>
    intro cwd h
    rw [walk_name (h n (by simp)), ih _ (fun x hx => h x (List.mem_cons_of_mem _ hx))]
    simp

theorem walk_normal (k : Nat) (names : List Str) (h : ∀ n ∈ names, Name n) : ∀ cwd, walk cwd (List.replicate k ['.', '.'] ++ names) = names.reverse ++ cwd.drop k := by
  induction k with
  | zero => intro cwd; exact walk_names names cwd h
  | succ k ih =>
    intro cwd
    rw [List.replicate_succ, List.cons_append, walk_up, ih]
    simp

/-- What `cleanParts` makes: parents first, then names. -/
theorem cleanParts_normal (root : Bool) : ∀ (cs names : List Str) (k : Nat), (∀ c ∈ cs, '/' ∉ c) → (∀ n ∈ names, Name n) → (root = true → k = 0) →
    ∃ k' names', cleanParts root (names ++ List.replicate k ['.', '.']) cs = List.replicate k' ['.', '.'] ++ names' ∧ (∀ n ∈ names', Name n) ∧ (root = true → k' = 0) ∧
      ∀ cwd, (root = true → cwd = []) → walk cwd (names.reverse.append cs |> (List.replicate k ['.', '.'] ++ ·)) = names'.reverse ++ cwd.drop k' := by
  intro cs
  induction cs with
  | nil =>
    intro names k _ hn hk
    refine ⟨k, names.reverse, ?_, fun n hm => hn n (List.mem_reverse.1 hm), hk, fun cwd _ => ?_⟩
    · unfold cleanParts
      rw [List.reverse_append, List.reverse_replicate]
    · show walk cwd (List.replicate k ['.', '.'] ++ (names.reverse ++ [])) = _
      rw [List.append_nil, walk_normal k _ (fun n hm => hn n (List.mem_reverse.1 hm))]
  | cons c cs ih =>
    intro names k hs hn hk
    have hs' : ∀ x ∈ cs, '/' ∉ x := fun x hx => hs x (List.mem_cons_of_mem _ hx)
    have hpre : ∀ cwd, walk cwd (List.replicate k ['.', '.'] ++ (names.reverse ++ c :: cs)) = walk (names ++ cwd.drop k) (c :: cs) := by
      intro cwd
      rw [← List.append_assoc, walk_append, walk_normal k _ (fun n hm => hn n (List.mem_reverse.1 hm)), List.reverse_reverse]
    have hpre' : ∀ (names : List Str) (k : Nat) (hn : ∀ n ∈ names, Name n) (cwd : List Str), walk cwd (List.replicate k ['.', '.'] ++ (names.reverse ++ cs)) = walk (names ++ cwd.drop k) cs := by
      intro names k hn cwd
      rw [← List.append_assoc, walk_append, walk_normal k _ (fun n hm => hn n (List.mem_reverse.1 hm)), List.reverse_reverse]
    unfold cleanParts
    split
    · rename_i hc
      obtain ⟨k', names', h1, h2, h3, h4⟩ := ih names k hs' hn hk
      refine ⟨k', names', h1, h2, h3, fun cwd hcwd => ?_⟩
      rw [← h4 cwd hcwd]
      show walk cwd (List.replicate k ['.', '.'] ++ (names.reverse ++ c :: cs)) = walk cwd (List.replicate k ['.', '.'] ++ (names.reverse ++ cs))
      rw [hpre, walk_skip hc, hpre' names k hn]
    · rename_i hskip
      split
      · rename_i hup
        subst hup
        cases names with
        | nil =>
          cases k with
          | zero =>
            show ∃ k' names', (if root then cleanParts root [] cs else cleanParts root [['.', '.']] cs) = _ ∧ _
            by_cases hr : root = true
            · rw [if_pos hr]
              obtain ⟨k', names', h1, h2, h3, h4⟩ := ih [] 0 hs' hn (fun _ => rfl)
              refine ⟨k', names', h1, h2, h3, fun cwd hcwd => ?_⟩
              rw [← h4 cwd hcwd]
              show walk cwd (['.', '.'] :: cs) = walk cwd cs
              rw [walk_up, hcwd hr]
              rfl
            · rw [if_neg hr]
              obtain ⟨k', names', h1, h2, h3, h4⟩ := ih [] 1 hs' hn (fun h => absurd h hr)
              refine ⟨k', names', h1, h2, h3, fun cwd hcwd => ?_⟩
              rw [← h4 cwd hcwd]
              rfl
          | succ k =>
            show ∃ k' names', (if (['.', '.'] : Str) = ['.', '.'] then cleanParts root (['.', '.'] :: ['.', '.'] :: List.replicate k ['.', '.']) cs else _) = _ ∧ _
            rw [if_pos rfl]
            obtain ⟨k', names', h1, h2, h3, h4⟩ := ih [] (k + 2) hs' hn (fun h => by have := hk h; omega)
            refine ⟨k', names', h1, h2, h3, fun cwd hcwd => ?_⟩
            rw [← h4 cwd hcwd]
            show walk cwd (List.replicate (k + 1) ['.', '.'] ++ (([] : List Str).reverse ++ ['.', '.'] :: cs)) = walk cwd (List.replicate (k + 2) ['.', '.'] ++ (([] : List Str).reverse ++ cs))
            rw [hpre, walk_up, hpre' [] (k + 2) (by simp)]
            simp
        | cons top rest =>
          have ht : Name top := hn top (by simp)
          show ∃ k' names', (if top = ['.', '.'] then _ else cleanParts root (rest ++ List.replicate k ['.', '.']) cs) = _ ∧ _
          rw [if_neg ht.2.2.1]
          have hn' : ∀ n ∈ rest, Name n := fun n hm => hn n (List.mem_cons_of_mem _ hm)
          obtain ⟨k', names', h1, h2, h3, h4⟩ := ih rest k hs' hn' hk
          refine ⟨k', names', h1, h2, h3, fun cwd hcwd => ?_⟩
          rw [← h4 cwd hcwd]
          show walk cwd (List.replicate k ['.', '.'] ++ ((top :: rest).reverse ++ ['.', '.'] :: cs)) = walk cwd (List.replicate k ['.', '.'] ++ (rest.reverse ++ cs))
          rw [hpre, walk_up, hpre' rest k hn']
          rfl
      · rename_i hup
        have hc : Name c := ⟨fun h => hskip (Or.inl h), fun h => hskip (Or.inr h), hup, hs c (by simp)⟩
        have hn' : ∀ n ∈ c :: names, Name n := fun n hm => by
          rcases List.mem_cons.1 hm with rfl | hm
          · exact hc
          · exact hn n hm
        obtain ⟨k', names', h1, h2, h3, h4⟩ := ih (c :: names) k hs' hn' hk
        refine ⟨k', names', h1, h2, h3, fun cwd hcwd => ?_⟩
        rw [← h4 cwd hcwd]
        show walk cwd (List.replicate k ['.', '.'] ++ (names.reverse ++ c :: cs)) = walk cwd (List.replicate k ['.', '.'] ++ ((c :: names).reverse ++ cs))
        rw [hpre, walk_name hc, hpre' (c :: names) k hn']
        rfl

/-- The shape of a cleaned path, and where it leads. -/
theorem clean_shape (p : Str) : ∃ k names, (∀ n ∈ names, Name n) ∧ (rooted p = true → k = 0) ∧
    cleanParts (rooted p) [] (splitSlash p) = List.replicate k ['.', '.'] ++ names ∧ ∀ cwd, place cwd p = names.reverse ++ (if rooted p then [] else cwd).drop k := by
  obtain ⟨k, names, h1, h2, h3, h4⟩ := cleanParts_normal (rooted p) (splitSlash p) [] 0 (splitSlash_noslash p) (by simp) (fun _ => rfl)
  refine ⟨k, names, h2, h3, h1, fun cwd => ?_⟩
  have hr : (p.head? = some '/') ↔ rooted p = true := by simp [rooted]
  unfold place
  have := h4 (if rooted p then [] else cwd) (fun h => by rw [if_pos h])
  rw [← this]
  simp only [hr]
  rfl

theorem join_head (cs : List Str) (hn : ∀ n ∈ cs, n ≠ [] ∧ '/' ∉ n) : (joinSlash cs).head? ≠ some '/' ∧ (joinSlash cs = [] ↔ cs = []) := by
  cases cs with
  | nil => simp [joinSlash]
  | cons x xs =>
    obtain ⟨h1, h2⟩ := hn x (by simp)
    cases x with
    | nil => exact absurd rfl h1
    | cons c x =>
      have hc : c ≠ '/' := fun e => h2 (by rw [e]; simp)
      cases xs with
      | nil => simp [joinSlash, hc]
      | cons y ys => simp [joinSlash, hc]

theorem parts_ok {k : Nat} {names : List Str} (hn : ∀ n ∈ names, Name n) : ∀ x ∈ List.replicate k (['.', '.'] : Str) ++ names, x ≠ [] ∧ '/' ∉ x := by
  intro x hx
  rcases List.mem_append.1 hx with hx | hx
  · rw [(List.mem_replicate.1 hx).2]
    decide
  · exact ⟨(hn x hx).1, (hn x hx).2.2.2⟩

/-- C95: a cleaned path leads to the same directory from everywhere. -/
theorem C95_clean_same_place (cwd : List Str) (p : Str) : place cwd (clean p) = place cwd p := by
  obtain ⟨k, names, hn, hk, he, hp⟩ := clean_shape p
  have hok := parts_ok (k := k) hn
  have hw : ∀ c, walk c (List.replicate k ['.', '.'] ++ names) = names.reverse ++ c.drop k := walk_normal k names hn
  unfold clean
  rw [he]
  dsimp only
  by_cases hr : rooted p = true
  · rw [hp]
    simp only [hr, if_true]
    unfold place
    rw [if_pos (show ('/' :: joinSlash (List.replicate k ['.', '.'] ++ names)).head? = some '/' from rfl), show splitSlash ('/' :: joinSlash (List.replicate k ['.', '.'] ++ names)) = [] :: splitSlash (joinSlash (List.replicate k ['.', '.'] ++ names)) by simp [splitSlash],
      walk_skip (Or.inl rfl)]
    by_cases hx : List.replicate k (['.', '.'] : Str) ++ names = []
    · rw [← hw, hx]; rfl
    · rw [split_join _ hx (fun x hm => (hok x hm).2), hw]
  · rw [hp]
    simp only [hr, if_false]
    by_cases hx : List.replicate k (['.', '.'] : Str) ++ names = []
    · rw [hx]
      show place cwd ['.'] = _
      rw [← hw, hx]
      rfl
    · have := join_head _ hok
      rw [if_neg (by simp), if_neg (fun e => hx (this.2.1 e))]
      unfold place
      rw [if_neg this.1, split_join _ hx (fun x hm => (hok x hm).2), hw]
      simp

theorem le_sum_mem {l : List Nat} {n : Nat} (h : n ∈ l) : n ≤ l.sum := by
  induction l with
  | nil => cases h
  | cons a l ih =>
    rw [List.sum_cons]
    rcases List.mem_cons.1 h with rfl | h
    · omega
    · have := ih h; omega

/-- C95: two paths that lead to the same directory from everywhere have the same cleaned path, so the same key in the journal and the same URL. -/
theorem C95_same_place_same_key (p q : Str) (h : ∀ cwd, place cwd p = place cwd q) : clean p = clean q ∧ dirKey p = dirKey q ∧ candidate p = candidate q := by
  have key : clean p = clean q := by
    obtain ⟨k, names, hn, hk, he, hp⟩ := clean_shape p
    obtain ⟨k', names', hn', hk', he', hp'⟩ := clean_shape q
    obtain ⟨x, hx⟩ : ∃ x : Str, x ∉ names ∧ x ∉ names' := by
      refine ⟨List.replicate (((names ++ names').map List.length).sum + 1) 'x', ?_⟩
      have hlen : ∀ n ∈ names ++ names', n ≠ List.replicate (((names ++ names').map List.length).sum + 1) 'x' := by
        intro n hm he
        have h1 : n.length ≤ ((names ++ names').map List.length).sum := le_sum_mem (List.mem_map.2 ⟨n, hm, rfl⟩)
        have h2 := congrArg List.length he
        rw [List.length_replicate] at h2
        omega
      exact ⟨fun hm => hlen _ (List.mem_append_left _ hm) rfl, fun hm => hlen _ (List.mem_append_right _ hm) rfl⟩
    have hall : ∀ N, names.reverse ++ (if rooted p then [] else List.replicate N x).drop k = names'.reverse ++ (if rooted q then [] else List.replicate N x).drop k' := by
      intro N
      rw [← hp, ← hp', h]
    have c1 : ∀ N, (names.reverse ++ (if rooted p then [] else List.replicate N x).drop k).count x = if rooted p then 0 else N - k := by
      intro N
      rw [List.count_append, List.count_reverse, List.count_eq_zero_of_not_mem hx.1]
      by_cases hr : rooted p = true
      · simp [hr]
      · simp [hr, List.drop_replicate]
    have c2 : ∀ N, (names'.reverse ++ (if rooted q then [] else List.replicate N x).drop k').count x = if rooted q then 0 else N - k' := by
      intro N
      rw [List.count_append, List.count_reverse, List.count_eq_zero_of_not_mem hx.2]
      by_cases hr : rooted q = true
      · simp [hr]
      · simp [hr, List.drop_replicate]
    have hcount : ∀ N, (if rooted p then 0 else N - k) = (if rooted q then 0 else N - k') := fun N => by rw [← c1 N, ← c2 N, hall N]
    have hroot : rooted p = rooted q := by
      have h1 := hcount (k + k' + 1)
      cases hp1 : rooted p <;> cases hq1 : rooted q <;> simp [hp1, hq1] at h1 ⊢ <;> omega
    have hkk : k = k' := by
      cases hq1 : rooted q with
      | true => rw [hk (hroot.trans hq1), hk' hq1]
      | false =>
        have h1 := hcount (k + k')
        rw [hroot] at h1
        simp only [hq1, if_false, Bool.false_eq_true] at h1
        omega
    have hnames : names = names' := by
      have := hall 0
      rw [hroot, hkk] at this
      have h2 := List.append_cancel_right this
      rw [← List.reverse_reverse names, h2, List.reverse_reverse]
    unfold clean
    rw [he, he', hkk, hnames, hroot]
  exact ⟨key, by unfold dirKey; rw [key], by unfold candidate dirKey; rw [key]⟩

theorem cleanParts_snoc (root : Bool) {n : Str} (h : Name n) : ∀ (cs acc : List Str), cleanParts root acc (cs ++ [n]) = cleanParts root acc cs ++ [n] := by
  intro cs
  induction cs with
  | nil =>
    intro acc
    show cleanParts root acc [n] = acc.reverse ++ [n]
    unfold cleanParts
    rw [if_neg (by rintro (h1 | h1); exact h.1 h1; exact h.2.1 h1), if_neg h.2.2.1]
    unfold cleanParts
    simp
  | cons c cs ih =>
    intro acc
    show cleanParts root acc (c :: (cs ++ [n])) = _
    unfold cleanParts
    split
    · exact ih _
    · split
      · cases acc with
        | nil =>
          dsimp only
          split
          · exact ih _
          · exact ih _
        | cons top rest =>
          dsimp only
          split
          · exact ih _
          · exact ih _
      · exact ih _

theorem joinSlash_snoc (cs : List Str) (n : Str) : ∃ pre, joinSlash (cs ++ [n]) = pre ++ n ∧ (pre = [] ∨ ∃ a, pre = a ++ ['/']) := by
  induction cs with
  | nil => exact ⟨[], rfl, Or.inl rfl⟩
  | cons x xs ih =>
    obtain ⟨pre, h1, h2⟩ := ih
    cases hxs : xs ++ [n] with
    | nil => simp at hxs
    | cons y ys =>
      refine ⟨x ++ '/' :: pre, ?_, Or.inr ?_⟩
      · show joinSlash (x :: (xs ++ [n])) = _
        rw [hxs]
        show x ++ '/' :: joinSlash (y :: ys) = _
        rw [← hxs, h1]
        simp
      · rcases h2 with rfl | ⟨a, rfl⟩
        · exact ⟨x, rfl⟩
        · exact ⟨x ++ '/' :: a, by simp⟩

theorem pathBase_append {pre n : Str} (hn : Name n) (hpre : pre = [] ∨ ∃ a, pre = a ++ ['/']) : pathBase (pre ++ n) = n := by
  have hrev : n.reverse ≠ [] := by simpa using hn.1
  obtain ⟨c, m, hc⟩ : ∃ c m, n.reverse = c :: m := by
    cases h : n.reverse with
    | nil => exact absurd h hrev
    | cons c m => exact ⟨c, m, rfl⟩
  have hns : ∀ x ∈ n.reverse, x ≠ '/' := fun x hx e => hn.2.2.2 (by rw [← e]; exact List.mem_reverse.1 hx)
  have hd : (pre ++ n).reverse.dropWhile (· == '/') = n.reverse ++ pre.reverse := by
    rw [List.reverse_append, hc, List.cons_append, List.dropWhile_cons_of_neg (by simpa using hns c (by rw [hc]; simp))]
  have ht : (n.reverse ++ pre.reverse).takeWhile (· != '/') = n.reverse := by
    rw [List.takeWhile_append_of_pos (fun x hx => by simpa using hns x hx)]
    rcases hpre with rfl | ⟨a, rfl⟩
    · simp
    · simp
  unfold pathBase
  rw [if_neg (by simp [hn.1])]
  dsimp only
  rw [hd, ht, if_neg (by simp [hn.1]), List.reverse_reverse]

/-- C95: the key of a directory given by its name, with any path before it and with or without a slash after it, is this name. -/
theorem C95_key_is_name (pre n : Str) (hpre : pre = [] ∨ ∃ a, pre = a ++ ['/']) (hn : Name n) (cwd : List Str) :
    dirKey (pre ++ n) = n ∧ dirKey (pre ++ n ++ ['/']) = n ∧ (place cwd (pre ++ n)).head? = some n := by
  have hsplit : ∃ cs, splitSlash (pre ++ n) = cs ++ [n] ∧ splitSlash (pre ++ n ++ ['/']) = cs ++ [n] ++ [[]] := by
    have h2 : splitSlash (pre ++ n ++ ['/']) = splitSlash (pre ++ n) ++ [[]] := splitSlash_append (pre ++ n) []
    rw [h2]
    rcases hpre with rfl | ⟨a, rfl⟩
    · exact ⟨[], by rw [List.nil_append, splitSlash_single n hn.2.2.2]; simp⟩
    · refine ⟨splitSlash a, ?_⟩
      have : a ++ ['/'] ++ n = a ++ '/' :: n := by simp
      rw [this, splitSlash_append, splitSlash_single n hn.2.2.2]
      simp
  obtain ⟨cs, h1, h2⟩ := hsplit
  have hk1 : dirKey (pre ++ n) = n := by
    unfold dirKey clean
    rw [h1, cleanParts_snoc _ hn]
    dsimp only
    obtain ⟨pre', e, hp'⟩ := joinSlash_snoc (cleanParts (rooted (pre ++ n)) [] cs) n
    rw [e]
    split
    · refine (congrArg pathBase (show '/' :: (pre' ++ n) = ('/' :: pre') ++ n from rfl)).trans (pathBase_append hn (Or.inr ?_))
      rcases hp' with rfl | ⟨a, rfl⟩
      · exact ⟨[], rfl⟩
      · exact ⟨'/' :: a, rfl⟩
    · rw [if_neg (by simp [hn.1])]
      exact pathBase_append hn hp'
  have hroot : rooted (pre ++ n ++ ['/']) = rooted (pre ++ n) := by
    unfold rooted
    cases hpn : pre ++ n with
    | nil => exact absurd (List.append_eq_nil_iff.1 hpn).2 hn.1
    | cons c m => rfl
  refine ⟨hk1, ?_, ?_⟩
  · rw [← (C95_same_place_same_key (pre ++ n) (pre ++ n ++ ['/']) ?_).2.1, hk1]
    intro cwd
    have hr1 : ((pre ++ n ++ ['/']).head? = some '/') ↔ ((pre ++ n).head? = some '/') := by
      have e1 : ∀ p : Str, p.head? = some '/' ↔ rooted p = true := fun p => by simp [rooted]
      rw [e1, e1, hroot]
    unfold place
    simp only [hr1]
    rw [h1, h2, walk_append _ _ [[]]]
    rfl
  · unfold place
    rw [h1, walk_append, walk_name hn]
    rfl

/-! ## C95: the handover -/

/-- The directory name of a URL without underscores gives the URL back. -/
theorem replace_dirNameOf (u : Str) (h : '_' ∉ u) : (dirNameOf u).map (fun c => if c = '_' then '/' else c) = u := by
  unfold dirNameOf
  induction u with
  | nil => rfl
  | cons c u ih =>
    rw [List.map_cons, List.map_cons, ih (fun hm => h (List.mem_cons_of_mem _ hm))]
    congr 1
    by_cases hc : c = '/'
    · subst hc; decide
    · rw [if_neg hc, if_neg (fun e => h (by rw [e]; simp))]

theorem dirNameOf_name (u : Str) (h : ':' ∈ u) : Name (dirNameOf u) := by
  have hm : ':' ∈ dirNameOf u := List.mem_map.2 ⟨':', h, by decide⟩
  refine ⟨fun e => ?_, fun e => ?_, fun e => ?_, fun hs => ?_⟩
  · rw [e] at hm; cases hm
  · rw [e] at hm; exact absurd hm (by decide)
  · rw [e] at hm; exact absurd hm (by decide)
  · obtain ⟨c, _, hc⟩ := List.mem_map.1 hs
    by_cases h1 : c = '/'
    · rw [if_pos h1] at hc; exact absurd hc (by decide)
    · rw [if_neg h1] at hc; exact h1 hc

theorem wrap64_small {x : Int} (h0 : 0 ≤ x) (h : x < 2 ^ 63) : wrap64 x = x := by
  unfold wrap64
  omega

/-- C95 (partial): for a log whose URL has no underscore and is printed as it was read, in the directory named after it: if the job succeeds, then the map server's fetcher for this URL starts right after the completed indices that begin with 0, all indices before were completed, the next one was not, and the state of every other log is as before. -/
theorem C95_handover_partial (H : Str → Str) (parse : Str → Option Url) (jobs : List Job) (t : Table) (url pre : Str) (hpre : pre = [] ∨ ∃ a, pre = a ++ ['/'])
    (hcolon : ':' ∈ url) (hunder : '_' ∉ url) (u : Url) (hparse : parse url = some u) (htext : u.text = url) (hscheme : u.scheme ≠ []) (hhost : u.host ≠ [])
    (j : Job) (hj : jobs.getLast? = some j) (i : Interval) (l : List Interval) (hl : lookup j.completed (dirNameOf url) = i :: l) (hcan : Canonical (i :: l)) (h0 : i.start = 0) (hsmall : i.stop + 1 < 2 ^ 63)
    (writeOk : Bool) :
    ∃ t' : Table, recordSize H parse jobs t (pre ++ dirNameOf url) true true writeOk = (t', some ((i.stop + 1 : Nat) : Int), writeOk) ∧
      firstIndex H t' url = ((i.stop + 1 : Nat) : Int) ∧ (∀ m, m < i.stop + 1 → ∃ x ∈ i :: l, x.start ≤ m ∧ m ≤ x.stop) ∧ (¬ ∃ x ∈ i :: l, x.start ≤ i.stop + 1 ∧ i.stop + 1 ≤ x.stop) ∧
      ∀ v, H v ≠ H url → lastState H t' v = lastState H t v := by
  have hkey : dirKey (pre ++ dirNameOf url) = dirNameOf url := (C95_key_is_name pre _ hpre (dirNameOf_name url hcolon) []).1
  have hcand : candidate (pre ++ dirNameOf url) = url := by
    unfold candidate
    rw [hkey, replace_dirNameOf url hunder]
  have hne : pre ++ dirNameOf url ≠ [] := fun e => (dirNameOf_name url hcolon).1 (List.append_eq_nil_iff.1 e).2
  have hder : deriveUrl parse (pre ++ dirNameOf url) = some url := by
    unfold deriveUrl
    rw [if_neg hne, hcand, hparse]
    dsimp only
    rw [if_neg (by rintro (h | h); exact hscheme h; exact hhost h), htext]
  have hsize : ctSize jobs (pre ++ dirNameOf url) = some ((i.stop + 1 : Nat) : Int) := by
    unfold ctSize
    rw [hj]
    dsimp only
    rw [hkey, hl]
    dsimp only
    have e1 : wrap64 (i.stop : Int) = i.stop := wrap64_small (by omega) (by omega)
    rw [e1, wrap64_small (by omega) (by omega)]
    rfl
  have hback := C31_recorded_size_partial (i :: l) hcan (i.stop + 1) rfl (by intro x hx; cases hx; exact h0)
  refine ⟨updateState H t url ((i.stop + 1 : Nat) : Int) none, ?_, ?_, hback.1, hback.2, ?_⟩
  · unfold recordSize
    rw [hder, hsize]
    rfl
  · unfold firstIndex lastState updateState
    rw [if_pos rfl]
    rfl
  · intro v hv
    unfold lastState updateState
    rw [if_neg hv]

/-- C95: a job that fails before the DB has answered changes no state, and no job changes the state of a URL other than the one derived from the directory. -/
theorem C95_only_derived (H : Str → Str) (parse : Str → Option Url) (jobs : List Job) (t : Table) (dir : Str) (c d w : Bool) (v : Str)
    (hv : ∀ url, deriveUrl parse dir = some url → H v ≠ H url) : lastState H (recordSize H parse jobs t dir c d w).1 v = lastState H t v := by
  unfold recordSize
  split
  · rfl
  · split
    · rfl
    · rename_i url hu
      split
      · rfl
      · split
        · rfl
        · unfold lastState updateState
          dsimp only
          rw [if_neg (hv url hu)]

/-- C95 is violated for logs with an underscore in their URL (as long as printing a URL adds no underscore): no directory ever records a size for them, so the map server fetches everything again. -/
theorem C95_underscore_violated (H : Str → Str) (hH : Function.Injective H) (parse : Str → Option Url) (hparse : ∀ x u, parse x = some u → '_' ∈ u.text → '_' ∈ x) (url : Str) (hu : '_' ∈ url)
    (jobs : List Job) (t : Table) (dir : Str) (c d w : Bool) : firstIndex H (recordSize H parse jobs t dir c d w).1 url = firstIndex H t url := by
  unfold firstIndex
  rw [C95_only_derived]
  intro u' hd e
  have := hH e
  subst this
  unfold deriveUrl at hd
  split at hd
  · cases hd
  · split at hd
    · cases hd
    · rename_i x hx
      split at hd
      · cases hd
      · cases hd
        have := hparse _ x hx hu
        unfold candidate at this
        obtain ⟨y, _, hy⟩ := List.mem_map.1 this
        by_cases h1 : y = '_'
        · rw [if_pos h1] at hy; exact absurd hy (by decide)
        · rw [if_neg h1] at hy; exact h1 hy

/-- C95 is violated: two logs can have the same directory name; what was ingested of the one is recorded for the other. -/
theorem C95_two_logs_violated : ∃ u v : Str, u ≠ v ∧ dirNameOf u = dirNameOf v ∧ '_' ∉ v ∧ ':' ∈ v :=
  ⟨"https://ct.example/a_b".toList, "https://ct.example/a/b".toList, by decide +kernel, by decide +kernel, by decide +kernel, by decide +kernel⟩

/-- C95 is violated: a size recorded by the map server can be replaced by a smaller one, and its tree head is removed. -/
theorem C95_regress_violated (H : Str → Str) (parse : Str → Option Url) (jobs : List Job) (t : Table) (dir url : Str) (hd : deriveUrl parse dir = some url) (n big : Int) (hn : ctSize jobs dir = some n) (hbig : n < big)
    (sth : Str) (ht : t (H url) = some (big, some sth)) : firstIndex H (recordSize H parse jobs t dir true true true).1 url < firstIndex H t url ∧ (lastState H (recordSize H parse jobs t dir true true true).1 url).2 = none := by
  have : (recordSize H parse jobs t dir true true true).1 = updateState H t url n none := by
    unfold recordSize
    rw [hd, hn]
    rfl
  rw [this]
  unfold firstIndex lastState updateState
  rw [if_pos rfl, ht]
  exact ⟨hbig, rfl⟩

/-- C95 is violated: the same directory, named as the current directory, has another key, so none of its completed indices are found; and for this key no URL has a scheme. -/
theorem C95_dot_violated : place ["log".toList, "data".toList] ".".toList = place ["log".toList, "data".toList] "/data/log".toList ∧
    dirKey ".".toList = ".".toList ∧ dirKey "/data/log".toList = "log".toList ∧ candidate ".".toList = ".".toList := by decide +kernel

/-- C95 is violated for indices from 2^63 - 1 on, which file names may have: a negative size is recorded. -/
theorem C95_overflow_violated : ctSize [⟨false, false, 0, [("log".toList, [⟨0, 2 ^ 63 - 1⟩])]⟩] "/data/log".toList = some (-(2 ^ 63)) ∧
    parseFileInterval "/data/log/0-9223372036854775807.csv".toList = some ⟨0, 2 ^ 63 - 1⟩ := by decide +kernel

/-! ## The hypotheses can be met -/

/-- An example of reading URLs: only this one is accepted. -/
def exUrl : Str := "https://ct.example/logs/x/".toList
def exParse (s : Str) : Option Url := if s = exUrl then some ⟨"https".toList, "ct.example".toList, exUrl⟩ else none
def exJobs : List Job := [⟨false, false, 0, [(dirNameOf exUrl, [⟨0, 99⟩, ⟨200, 299⟩])]⟩]

example : dirNameOf exUrl = "https:__ct.example_logs_x_".toList := by decide +kernel

example : ∃ t' : Table, recordSize id exParse exJobs (fun _ => none) ("/data/".toList ++ dirNameOf exUrl) true true true = (t', some 100, true) ∧ firstIndex id t' exUrl = 100 := by
  obtain ⟨t', h1, h2, _⟩ := C95_handover_partial id exParse exJobs (fun _ => none) exUrl "/data/".toList (Or.inr ⟨"/data".toList, by decide +kernel⟩) (by decide +kernel) (by decide +kernel)
    ⟨"https".toList, "ct.example".toList, exUrl⟩ (by decide +kernel) rfl (by decide +kernel) (by decide +kernel) ⟨false, false, 0, [(dirNameOf exUrl, [⟨0, 99⟩, ⟨200, 299⟩])]⟩ rfl ⟨0, 99⟩ [⟨200, 299⟩] (by decide +kernel)
    (by constructor <;> simp) rfl (by decide) true
  exact ⟨t', h1, h2⟩

example : ∀ x u, exParse x = some u → '_' ∈ u.text → '_' ∈ x := by
  intro x u h hm
  unfold exParse at h
  split at h
  · cases h
    exact absurd hm (by decide +kernel)
  · cases h

example : Name "log".toList := by unfold Name; decide +kernel
example : clean "/a//b/./../c/".toList = "/a/c".toList ∧ clean "a/../../b".toList = "../b".toList ∧ clean "".toList = ".".toList ∧ clean "/..".toList = "/".toList := by decide +kernel

/-- `a/x/..` and `./a/` lead to the same directory from everywhere. -/
example : ∀ cwd, place cwd "a/x/..".toList = place cwd "./a/".toList := by
  intro cwd
  have h1 : splitSlash "a/x/..".toList = [['a'], ['x'], ['.', '.']] := by decide +kernel
  have h2 : splitSlash "./a/".toList = [['.'], ['a'], []] := by decide +kernel
  unfold place
  rw [h1, h2, if_neg (by decide +kernel), if_neg (by decide +kernel)]
  simp [walk]

end Fpki.CtSize
