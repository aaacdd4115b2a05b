import Verif.Model.LocalList
import Verif.Lemmas.Rows
import Verif.Props.Fetch

/-!
# C125: which files the local log fetcher uses
-/
namespace Fpki.LocalList

open Fpki.Fetch

/-! ## Specification -/

/-- The value of decimal digits. -/
def value (ds : Bytes) : Nat := ds.foldl (fun v c => v * 10 + (c.toNat - 48)) 0

/-- `t` is a number: digits, maybe after a plus sign, that fit in 63 bits. -/
def IsNumber (t : Bytes) (n : Int) : Prop :=
  ∃ ds : Bytes, (t = ds ∨ t = 43 :: ds) ∧ ds ≠ [] ∧ (∀ c ∈ ds, 48 ≤ c ∧ c ≤ 57) ∧ value ds < 2 ^ 63 ∧ n = (value ds : Int)

/-- The name is `<a>-<b>.gz` or `<a>-<b>.csv`, without other dashes. -/
def Dashed (name a b : Bytes) : Prop := (45 : Byte) ∉ a ∧ (45 : Byte) ∉ b ∧ (name = a ++ 45 :: b ++ gzExt ∨ name = a ++ 45 :: b ++ csvExt)

/-- The name is `<start>-<end>.gz` or `<start>-<end>.csv`. -/
def Range (name : Bytes) (start stop : Int) : Prop := ∃ a b, Dashed name a b ∧ IsNumber a start ∧ IsNumber b stop

/-- The name has the form `<a>-<b>.gz` or `<a>-<b>.csv` but not both parts are numbers. -/
def Odd (name : Bytes) : Prop := ∃ a b, Dashed name a b ∧ ¬ ((∃ s, IsNumber a s) ∧ ∃ e, IsNumber b e)

/-- There is a file with this path and name at any depth below the directory `dir`, in a directory that could be read up to there. -/
def Below (path name : Bytes) : Bytes → Tree → Prop
  | _, .nil => False
  | dir, .cons n isDir _ content rest =>
    (isDir = false ∧ path = dir ++ [47] ++ n ∧ name = n) ∨ (isDir = true ∧ Below path name (dir ++ [47] ++ n) content) ∨ Below path name dir rest

/-! ## Names -/

theorem digitsVal_iff (ds : Bytes) : ∀ (acc n : Nat), Rows.digitsVal acc ds = some n ↔ (∀ c ∈ ds, 48 ≤ c ∧ c ≤ 57) ∧ n = ds.foldl (fun v c => v * 10 + (c.toNat - 48)) acc := by
  induction ds with
  | nil => intro acc n; simp [Rows.digitsVal, eq_comm]
  | cons c r ih =>
    intro acc n
    rw [Rows.digitsVal]
    by_cases hd : FastCsv.isDigit c = true
    · rw [if_pos hd, ih]
      have := (FastCsv.isDigit_iff c).1 hd
      simp only [List.mem_cons, forall_eq_or_imp, List.foldl_cons]
      exact ⟨fun h => ⟨⟨this, h.1⟩, h.2⟩, fun h => ⟨h.1.2, h.2⟩⟩
    · rw [if_neg hd]
      simp only [reduceCtorEq, List.mem_cons, forall_eq_or_imp, false_iff]
      intro h
      exact hd ((FastCsv.isDigit_iff c).2 h.1.1)

theorem parse_iff (t : Bytes) (ht : (45 : Byte) ∉ t) (n : Int) : Rows.parseInt64 t = some n ↔ IsNumber t n := by
  have h45 : t.head? ≠ some 45 := fun h => ht (List.mem_of_head? h)
  unfold Rows.parseInt64 IsNumber
  simp only [h45, or_false, if_false]
  by_cases h43 : t.head? = some 43
  · rw [if_pos h43]
    obtain ⟨ds, rfl⟩ : ∃ ds, t = 43 :: ds := by
      cases t with
      | nil => cases h43
      | cons c r => rw [List.head?_cons, Option.some.injEq] at h43; exact ⟨r, by rw [h43]⟩
    rw [List.tail_cons]
    constructor
    · intro h
      by_cases h0 : ds = []
      · rw [if_pos h0] at h; cases h
      · rw [if_neg h0] at h
        cases hv : Rows.digitsVal 0 ds with
        | none => rw [hv] at h; cases h
        | some m =>
          rw [hv] at h
          dsimp only at h
          obtain ⟨h1, h2⟩ := (digitsVal_iff ds 0 m).1 hv
          split at h
          · rename_i hlt
            cases h
            exact ⟨ds, Or.inr rfl, h0, h1, by unfold value; rw [← h2]; exact hlt, by unfold value; rw [← h2]⟩
          · cases h
    · rintro ⟨ds', h1, h2, h3, h4, h5⟩
      have : ds' = ds := by
        rcases h1 with h1 | h1
        · exact absurd (h3 43 (by rw [← h1]; exact List.mem_cons_self)) (by decide)
        · injection h1 with _ h1
          exact h1.symm
      subst this
      rw [if_neg h2, (digitsVal_iff ds' 0 (value ds')).2 ⟨h3, rfl⟩]
      dsimp only
      rw [if_pos h4, h5]
  · rw [if_neg h43]
    constructor
    · intro h
      by_cases h0 : t = []
      · rw [if_pos h0] at h; cases h
      · rw [if_neg h0] at h
        cases hv : Rows.digitsVal 0 t with
        | none => rw [hv] at h; cases h
        | some m =>
          rw [hv] at h
          dsimp only at h
          obtain ⟨h1, h2⟩ := (digitsVal_iff t 0 m).1 hv
          split at h
          · rename_i hlt
            cases h
            exact ⟨t, Or.inl rfl, h0, h1, by unfold value; rw [← h2]; exact hlt, by unfold value; rw [← h2]⟩
          · cases h
    · rintro ⟨ds', h1, h2, h3, h4, h5⟩
      have : ds' = t := by
        rcases h1 with h1 | h1
        · exact h1.symm
        · rw [h1] at h43
          exact absurd rfl h43
      subst this
      rw [if_neg h2, (digitsVal_iff ds' 0 (value ds')).2 ⟨h3, rfl⟩]
      dsimp only
      rw [if_pos h4, h5]

theorem number_unique {t : Bytes} (ht : (45 : Byte) ∉ t) {m n : Int} (h1 : IsNumber t m) (h2 : IsNumber t n) : m = n := by
  have a := (parse_iff t ht m).2 h1
  rw [(parse_iff t ht n).2 h2] at a
  cases a
  rfl

theorem takeWhile_dash (a b : Bytes) (h : (45 : Byte) ∉ a) : (a ++ 45 :: b).takeWhile (· != 45) = a ∧ ((a ++ 45 :: b).dropWhile (· != 45)).tail = b := by
  induction a with
  | nil => simp
  | cons c a ih =>
    have hc : (c != 45) = true := by
      rw [bne_iff_ne]
      intro hc
      exact h (by rw [hc]; exact List.mem_cons_self)
    obtain ⟨i1, i2⟩ := ih (fun h' => h (List.mem_cons_of_mem _ h'))
    rw [List.cons_append, List.takeWhile_cons, if_pos hc, List.dropWhile_cons, if_pos hc, i1]
    exact ⟨rfl, i2⟩

/-- One dash: the two parts. -/
theorem one_dash (r : Bytes) (h : r.count 45 = 1) : ∃ a b, r = a ++ 45 :: b ∧ (45 : Byte) ∉ a ∧ (45 : Byte) ∉ b := by
  have hm : (45 : Byte) ∈ r := List.count_pos_iff.1 (by omega)
  obtain ⟨a, b, rfl, ha⟩ := List.eq_append_cons_of_mem hm
  refine ⟨a, b, rfl, ha, ?_⟩
  rw [List.count_append, List.count_cons_self, List.count_eq_zero_of_not_mem ha] at h
  exact List.count_eq_zero.1 (by omega)

def ext (gz : Bool) : Bytes := if gz then gzExt else csvExt

theorem cutSuffix_eq (s suf r : Bytes) : cutSuffix s suf = some r ↔ s = r ++ suf := by
  unfold cutSuffix
  constructor
  · intro h
    split at h
    · rename_i hs
      cases h
      obtain ⟨p, rfl⟩ := List.isSuffixOf_iff_suffix.1 hs
      rw [List.length_append, Nat.add_sub_cancel, List.take_left' rfl]
    · cases h
  · rintro rfl
    rw [if_pos (List.isSuffixOf_iff_suffix.2 (List.suffix_append _ _)), List.length_append, Nat.add_sub_cancel, List.take_left' rfl]

theorem cutSuffix_none (s suf : Bytes) : cutSuffix s suf = none ↔ ∀ r, s ≠ r ++ suf := by
  rw [Option.eq_none_iff_forall_ne_some]
  exact ⟨fun h r hr => h r ((cutSuffix_eq s suf r).2 hr), fun h r hr => h r ((cutSuffix_eq s suf r).1 hr)⟩

/-- What `getFileInfo` gives for one extension. -/
theorem info_spec (path name : Bytes) (gz : Bool) :
    (∀ a b, (45 : Byte) ∉ a → (45 : Byte) ∉ b → name = a ++ 45 :: b ++ ext gz →
      (∀ s e, IsNumber a s → IsNumber b e → getFileInfo path name gz = some (some ⟨path, s, e⟩)) ∧
      (¬ ((∃ s, IsNumber a s) ∧ ∃ e, IsNumber b e) → getFileInfo path name gz = none)) ∧
    ((∀ a b, (45 : Byte) ∉ a → (45 : Byte) ∉ b → name ≠ a ++ 45 :: b ++ ext gz) → getFileInfo path name gz = some none) := by
  constructor
  · intro a b ha hb hn
    have hc : cutSuffix name (ext gz) = some (a ++ 45 :: b) := (cutSuffix_eq _ _ _).2 hn
    have h1 : (a ++ 45 :: b).count 45 = 1 := by
      rw [List.count_append, List.count_cons_self, List.count_eq_zero_of_not_mem ha, List.count_eq_zero_of_not_mem hb]
    obtain ⟨t1, t2⟩ := takeWhile_dash a b ha
    unfold getFileInfo
    dsimp only
    unfold ext at hc
    rw [hc]
    dsimp only
    rw [if_pos h1, t1, t2]
    constructor
    · intro s e hs he
      rw [(parse_iff a ha s).2 hs, (parse_iff b hb e).2 he]
    · intro hno
      cases hpa : Rows.parseInt64 a with
      | none => rfl
      | some s =>
        cases hpb : Rows.parseInt64 b with
        | none => rfl
        | some e => exact absurd ⟨⟨s, (parse_iff a ha s).1 hpa⟩, e, (parse_iff b hb e).1 hpb⟩ hno
  · intro h
    unfold getFileInfo
    dsimp only
    cases hc : cutSuffix name (if gz = true then gzExt else csvExt) with
    | none => rfl
    | some r =>
      dsimp only
      by_cases h1 : r.count 45 = 1
      · obtain ⟨a, b, rfl, ha, hb⟩ := one_dash r h1
        exact absurd ((cutSuffix_eq _ _ _).1 hc) (h a b ha hb)
      · rw [if_neg h1]

theorem ext_ne (r r' : Bytes) : r ++ gzExt ≠ r' ++ csvExt := by
  intro h
  have := congrArg List.getLast? h
  simp [gzExt, csvExt] at this

theorem dashed_not {name a b : Bytes} (gz : Bool) (hn : name = a ++ 45 :: b ++ ext gz) : ∀ a' b', (45 : Byte) ∉ a' → (45 : Byte) ∉ b' → name ≠ a' ++ 45 :: b' ++ ext (!gz) := by
  intro a' b' _ _ h
  rw [hn] at h
  cases gz with
  | true => exact ext_ne _ _ h
  | false => exact ext_ne _ _ h.symm

/-- What the callback does with a file. -/
theorem visit_range (path name : Bytes) (s e : Int) (h : Range name s e) : ∃ x, visit path name = some x ∧ x.1 ++ x.2 = [⟨path, s, e⟩] := by
  obtain ⟨a, b, ⟨ha, hb, hn⟩, hs, he⟩ := h
  unfold visit
  rcases hn with hn | hn
  · rw [((info_spec path name true).1 a b ha hb hn).1 s e hs he, (info_spec path name false).2 (dashed_not true hn)]
    exact ⟨_, rfl, rfl⟩
  · rw [((info_spec path name false).1 a b ha hb hn).1 s e hs he, (info_spec path name true).2 (dashed_not false hn)]
    exact ⟨_, rfl, rfl⟩

theorem visit_odd (path name : Bytes) (h : Odd name) : visit path name = none := by
  obtain ⟨a, b, ⟨ha, hb, hn⟩, hno⟩ := h
  unfold visit
  rcases hn with hn | hn
  · rw [((info_spec path name true).1 a b ha hb hn).2 hno]
  · rw [(info_spec path name true).2 (dashed_not false hn), ((info_spec path name false).1 a b ha hb hn).2 hno]

theorem visit_other (path name : Bytes) (h : ∀ a b, ¬ Dashed name a b) : visit path name = some ([], []) := by
  unfold visit
  rw [(info_spec path name true).2 (fun a b ha hb hn => h a b ⟨ha, hb, Or.inl hn⟩), (info_spec path name false).2 (fun a b ha hb hn => h a b ⟨ha, hb, Or.inr hn⟩)]
  rfl

theorem dashed_unique {name a b a' b' : Bytes} (h : Dashed name a b) (h' : Dashed name a' b') : a = a' ∧ b = b' := by
  obtain ⟨ha, hb, hn⟩ := h
  obtain ⟨ha', hb', hn'⟩ := h'
  have key : a ++ 45 :: b = a' ++ 45 :: b' := by
    rcases hn with hn | hn <;> rcases hn' with hn' | hn' <;> rw [hn] at hn'
    · exact List.append_cancel_right hn'
    · exact absurd hn' (ext_ne _ _)
    · exact absurd hn'.symm (ext_ne _ _)
    · exact List.append_cancel_right hn'
  have t1 := takeWhile_dash a b ha
  rw [key] at t1
  have t2 := takeWhile_dash a' b' ha'
  exact ⟨t1.1.symm.trans t2.1, t1.2.symm.trans t2.2⟩

theorem visit_mem (path name : Bytes) (x : Found) (h : visit path name = some x) (f : File) : f ∈ x.1 ++ x.2 ↔ f.path = path ∧ Range name f.start f.stop := by
  by_cases hd : ∃ a b, Dashed name a b
  · obtain ⟨a, b, hd⟩ := hd
    by_cases hr : (∃ s, IsNumber a s) ∧ ∃ e, IsNumber b e
    · obtain ⟨⟨s, hs⟩, e, he⟩ := hr
      obtain ⟨y, hy, hl⟩ := visit_range path name s e ⟨a, b, hd, hs, he⟩
      rw [h] at hy
      cases hy
      rw [hl, List.mem_singleton]
      constructor
      · rintro rfl
        exact ⟨rfl, a, b, hd, hs, he⟩
      · rintro ⟨h1, a', b', hd', hs', he'⟩
        obtain ⟨rfl, rfl⟩ := dashed_unique hd hd'
        cases f
        simp only at h1 hs' he'
        rw [h1, number_unique hd.1 hs' hs, number_unique hd.2.1 he' he]
    · rw [visit_odd path name ⟨a, b, hd, hr⟩] at h
      cases h
  · rw [visit_other path name (fun a b h => hd ⟨a, b, h⟩)] at h
    cases h
    simp only [List.append_nil, List.not_mem_nil, false_iff, not_and]
    rintro _ ⟨a, b, h, _⟩
    exact hd ⟨a, b, h⟩

theorem visit_ok (path name : Bytes) (h : ¬ Odd name) : ∃ x, visit path name = some x := by
  by_cases hd : ∃ a b, Dashed name a b
  · obtain ⟨a, b, hd⟩ := hd
    by_cases hr : (∃ s, IsNumber a s) ∧ ∃ e, IsNumber b e
    · obtain ⟨⟨s, hs⟩, e, he⟩ := hr
      obtain ⟨y, hy, _⟩ := visit_range path name s e ⟨a, b, hd, hs, he⟩
      exact ⟨y, hy⟩
    · exact absurd ⟨a, b, hd, hr⟩ h
  · exact ⟨_, visit_other path name (fun a b h => hd ⟨a, b, h⟩)⟩

/-! ## The walk -/

theorem walk_spec : ∀ (t : Tree) (dir : Bytes),
    ((∀ p n, Below p n dir t → ¬ Odd n) → ∃ x, walk dir t = some x) ∧
    (∀ p n, Below p n dir t → Odd n → walk dir t = none) ∧
    ∀ x, walk dir t = some x → ∀ f : File, f ∈ x.1 ++ x.2 ↔ ∃ n, Below f.path n dir t ∧ Range n f.start f.stop
  | .nil, dir => ⟨fun _ => ⟨_, rfl⟩, fun _ _ h => h.elim, fun x hx f => by cases hx; simp [Below]⟩
  | .cons name isDir failed content rest, dir => by
    obtain ⟨r1, r2, r3⟩ := walk_spec rest dir
    obtain ⟨c1, c2, c3⟩ := walk_spec content (dir ++ [47] ++ name)
    cases isDir with
    | true =>
      refine ⟨?_, ?_, ?_⟩
      · intro h
        obtain ⟨x, hx⟩ := c1 (fun p n hb => h p n (Or.inr (Or.inl ⟨rfl, hb⟩)))
        obtain ⟨y, hy⟩ := r1 (fun p n hb => h p n (Or.inr (Or.inr hb)))
        unfold walk
        rw [if_pos (show true = true from rfl), hx]
        dsimp only
        rw [hy]
        exact ⟨_, rfl⟩
      · intro p n hb ho
        unfold walk
        rw [if_pos (show true = true from rfl)]
        rcases hb with hb | hb | hb
        · exact absurd hb.1 (by decide)
        · rw [c2 p n hb.2 ho]
        · cases hw : walk (dir ++ [47] ++ name) content with
          | none => rfl
          | some x => dsimp only; rw [r2 p n hb ho]
      · intro x hx f
        unfold walk at hx
        rw [if_pos (show true = true from rfl)] at hx
        cases hw : walk (dir ++ [47] ++ name) content with
        | none => rw [hw] at hx; cases hx
        | some a =>
          rw [hw] at hx
          dsimp only at hx
          cases hr : walk dir rest with
          | none => rw [hr] at hx; cases hx
          | some b =>
            rw [hr] at hx
            cases hx
            have e1 := c3 a hw f
            have e2 := r3 b hr f
            rw [List.mem_append] at e1 e2
            simp only [List.mem_append, Below]
            constructor
            · intro h
              have : (f ∈ a.1 ∨ f ∈ a.2) ∨ (f ∈ b.1 ∨ f ∈ b.2) := by
                rcases h with (h | h) | (h | h)
                · exact Or.inl (Or.inl h)
                · exact Or.inr (Or.inl h)
                · exact Or.inl (Or.inr h)
                · exact Or.inr (Or.inr h)
              rcases this with h | h
              · obtain ⟨n, hb, hr'⟩ := e1.1 h
                exact ⟨n, Or.inr (Or.inl ⟨True.intro, hb⟩), hr'⟩
              · obtain ⟨n, hb, hr'⟩ := e2.1 h
                exact ⟨n, Or.inr (Or.inr hb), hr'⟩
            · rintro ⟨n, hb | hb | hb, hr'⟩
              · exact absurd hb.1 (by decide)
              · rcases e1.2 ⟨n, hb.2, hr'⟩ with h | h
                · exact Or.inl (Or.inl h)
                · exact Or.inr (Or.inl h)
              · rcases e2.2 ⟨n, hb, hr'⟩ with h | h
                · exact Or.inl (Or.inr h)
                · exact Or.inr (Or.inr h)
    | false =>
      refine ⟨?_, ?_, ?_⟩
      · intro h
        obtain ⟨x, hx⟩ := visit_ok (dir ++ [47] ++ name) name (h _ _ (Or.inl ⟨rfl, rfl, rfl⟩))
        obtain ⟨y, hy⟩ := r1 (fun p n hb => h p n (Or.inr (Or.inr hb)))
        unfold walk
        rw [if_neg (by decide), hx]
        dsimp only
        rw [hy]
        exact ⟨_, rfl⟩
      · intro p n hb ho
        unfold walk
        rw [if_neg (by decide)]
        rcases hb with ⟨_, _, rfl⟩ | hb | hb
        · rw [visit_odd _ _ ho]
        · exact absurd hb.1 (by decide)
        · cases hw : visit (dir ++ [47] ++ name) name with
          | none => rfl
          | some x => dsimp only; rw [r2 p n hb ho]
      · intro x hx f
        unfold walk at hx
        rw [if_neg (by decide)] at hx
        cases hw : visit (dir ++ [47] ++ name) name with
        | none => rw [hw] at hx; cases hx
        | some a =>
          rw [hw] at hx
          dsimp only at hx
          cases hr : walk dir rest with
          | none => rw [hr] at hx; cases hx
          | some b =>
            rw [hr] at hx
            cases hx
            have e1 := visit_mem _ _ a hw f
            have e2 := r3 b hr f
            rw [List.mem_append] at e1 e2
            simp only [List.mem_append, Below]
            constructor
            · intro h
              have : (f ∈ a.1 ∨ f ∈ a.2) ∨ (f ∈ b.1 ∨ f ∈ b.2) := by
                rcases h with (h | h) | (h | h)
                · exact Or.inl (Or.inl h)
                · exact Or.inr (Or.inl h)
                · exact Or.inl (Or.inr h)
                · exact Or.inr (Or.inr h)
              rcases this with h | h
              · obtain ⟨hp, hr'⟩ := e1.1 h
                exact ⟨name, Or.inl ⟨True.intro, hp, rfl⟩, hr'⟩
              · obtain ⟨n, hb, hr'⟩ := e2.1 h
                exact ⟨n, Or.inr (Or.inr hb), hr'⟩
            · rintro ⟨n, hb | hb | hb, hr'⟩
              · obtain ⟨_, hp, rfl⟩ := hb
                rcases e1.2 ⟨hp, hr'⟩ with h | h
                · exact Or.inl (Or.inl h)
                · exact Or.inr (Or.inl h)
              · exact absurd hb.1 (by decide)
              · rcases e2.2 ⟨n, hb, hr'⟩ with h | h
                · exact Or.inl (Or.inr h)
                · exact Or.inr (Or.inr h)

/-! ## C125 -/

/-- C125: if no file has a name with one dash whose two sides are not numbers, exactly the files `<start>-<end>.gz` and `<start>-<end>.csv` at any depth are found, with
the range in their name; all others are ignored. -/
theorem C125_files_partial (folder base : Bytes) (failed : Bool) (t : Tree) (h : ∀ p n, Below p n folder t → ¬ Odd n) :
    ∃ files, listFiles folder base (.entry true failed t) = .ok files ∧
      ∀ f : File, f ∈ files ↔ ∃ name, Below f.path name folder t ∧ Range name f.start f.stop := by
  obtain ⟨x, hx⟩ := (walk_spec t folder).1 h
  refine ⟨x.1 ++ x.2, ?_, (walk_spec t folder).2.2 x hx⟩
  unfold listFiles
  dsimp only
  rw [if_pos (show true = true from rfl), hx]

/-- C125 is violated: one file like `notes-old.csv` or `0-99.csv.gz` at any depth, and no file of the folder is used: the fetcher does not start. -/
theorem C125_odd_name_violated (folder base : Bytes) (failed : Bool) (t : Tree) (p n : Bytes) (hb : Below p n folder t) (ho : Odd n) (order : List Int) (fuel : Nat) :
    initFiles folder base (.entry true failed t) order fuel = .err := by
  unfold initFiles listFiles
  dsimp only
  rw [if_pos (show true = true from rfl), (walk_spec t folder).2.1 p n hb ho]

/-- C125 is violated: if the folder does not exist, the map server panics. -/
theorem C125_missing_folder_violated (folder base : Bytes) (order : List Int) (fuel : Nat) : initFiles folder base .missing order fuel = .panic := rfl

/-- Mark every directory as not readable to its end. -/
def allFailed : Tree → Tree
  | .nil => .nil
  | .cons n d _ c r => .cons n d true (allFailed c) (allFailed r)

/-- C125 is violated: errors from reading directories are ignored: the result is as if what could be read were everything. -/
theorem C125_unreadable_violated (folder base : Bytes) (t : Tree) : listFiles folder base (.entry true true (allFailed t)) = listFiles folder base (.entry true false t) := by
  have : ∀ (t : Tree) (dir : Bytes), walk dir (allFailed t) = walk dir t := by
    intro t
    induction t with
    | nil => intro dir; rfl
    | cons n d f c r ihc ihr => intro dir; rw [allFailed, walk, walk, ihc, ihr]
  unfold listFiles
  dsimp only
  rw [this]

/-- C125: from the folder to what is ingested: if there is a file whose range begins where the last update ended, the next target is reached by consecutive files of the
folder (at least one; the others within the limit), exactly these are read, and no further file could have been taken. -/
theorem C125_next_files_partial (folder base : Bytes) (failed : Bool) (t : Tree) (h : ∀ p n, Below p n folder t → ¬ Odd n)
    (files : List File) (hl : listFiles folder base (.entry true failed t) = .ok files) (hn : (files.map File.start).Nodup) (ho : ∀ p n s e, Below p n folder t → Range n s e → s ≤ e)
    (order : List Int) (hord : ∀ s, s ∈ order ↔ ∃ f ∈ files, f.start = s) (fuel : Nat) (hf : files.length < fuel) (max last : Int)
    (hs : ∃ p n e, Below p n folder t ∧ Range n last e) :
    ∃ m l, initFiles folder base (.entry true failed t) order fuel = .ok m ∧ l ≠ [] ∧ Chain files last l ∧ getCurrentState m max last = endOf last l ∧
      requestedFiles m last (getCurrentState m max last - 1) = l ∧ (∀ f ∈ l.tail, f.stop - last + 1 ≤ max) ∧
      ∀ p n e, Below p n folder t → Range n (getCurrentState m max last) e → e - last + 1 > max := by
  obtain ⟨files', hl', hm⟩ := C125_files_partial folder base failed t h
  rw [hl] at hl'
  cases hl'
  have hord' : Ordered files := by
    intro f hf'
    obtain ⟨n, h1, h2⟩ := (hm f).1 hf'
    exact ho _ _ _ _ h1 h2
  obtain ⟨m, h1, _, _⟩ := C26_initialize hn hord' order hord fuel hf
  obtain ⟨p, n, e, hb, hr⟩ := hs
  obtain ⟨l, t1, t2, t3, t4, t5, t6⟩ := C26_target hn hord' order hord fuel hf m h1 max last ⟨⟨p, last, e⟩, (hm ⟨p, last, e⟩).2 ⟨n, hb, hr⟩, rfl⟩
  refine ⟨m, l, ?_, t1, t2, t3, t4, t5, ?_⟩
  · unfold initFiles
    rw [hl]
    dsimp only
    rw [h1]
  · intro p' n' e' hb' hr'
    exact t6 ⟨p', getCurrentState m max last, e'⟩ ((hm _).2 ⟨n', hb', hr'⟩) rfl

/-! ## Examples -/

def s (x : String) : Bytes := x.toList.map (fun c => UInt8.ofNat c.toNat)

/-- A folder with a subfolder. -/
def exTree : Tree :=
  .cons (s "0-99.gz") false false .nil (.cons (s "README") false false .nil (.cons (s "more") true true (.cons (s "100-149.csv") false false .nil
    (.cons (s "150-+0199.gz") false false .nil .nil)) (.cons (s "a-b-c.csv") false false .nil .nil)))

example : listFiles (s "d") (s "d") (.entry true false exTree) = .ok [⟨s "d/0-99.gz", 0, 99⟩, ⟨s "d/more/150-+0199.gz", 150, 199⟩, ⟨s "d/more/100-149.csv", 100, 149⟩] := by decide +kernel

example : ∃ m, initFiles (s "d") (s "d") (.entry true false exTree) [0, 100, 150] 4 = .ok m ∧ getCurrentState m 150 0 = 150 := by
  have h : ∃ m, initMap [⟨s "d/0-99.gz", 0, 99⟩, ⟨s "d/more/150-+0199.gz", 150, 199⟩, ⟨s "d/more/100-149.csv", 100, 149⟩] [0, 100, 150] 4 = some m ∧ getCurrentState m 150 0 = 150 := ⟨_, rfl, by decide +kernel⟩
  obtain ⟨m, h1, h2⟩ := h
  refine ⟨m, ?_, h2⟩
  have hl : listFiles (s "d") (s "d") (.entry true false exTree) = .ok [⟨s "d/0-99.gz", 0, 99⟩, ⟨s "d/more/150-+0199.gz", 150, 199⟩, ⟨s "d/more/100-149.csv", 100, 149⟩] := by decide +kernel
  unfold initFiles
  rw [hl]
  dsimp only
  rw [h1]

theorem ex_below : ∀ p n, Below p n (s "d") exTree → ¬ Odd n := by
  have key : ∀ p n, visit p n ≠ none → ¬ Odd n := fun p n h ho => h (visit_odd p n ho)
  have lit : ∀ n ∈ [s "0-99.gz", s "README", s "100-149.csv", s "150-+0199.gz", s "a-b-c.csv"], visit [] n ≠ none := by decide +kernel
  intro p n h
  unfold exTree at h
  simp only [Below, Bool.true_eq_false, Bool.false_eq_true, false_and, true_and, false_or, or_false] at h
  refine key [] n (lit n ?_)
  rcases h with h | h | h | h
  · simp [h.2]
  · simp [h.2]
  · rcases h with h | h <;> simp [h.2]
  · simp [h.2]

/-- The name of a compressed CSV file stops the fetcher. -/
theorem ex_odd : Odd (s "0-99.csv.gz") := by
  refine ⟨s "0", s "99.csv", ⟨by decide, by decide, Or.inl (by decide)⟩, ?_⟩
  rintro ⟨_, e, he⟩
  have := (parse_iff (s "99.csv") (by decide) e).2 he
  have h2 : Rows.parseInt64 (s "99.csv") = none := by decide +kernel
  rw [h2] at this
  cases this

example : initFiles (s "d") (s "d") (.entry true false (.cons (s "0-99.csv.gz") false false .nil exTree)) [0, 100, 150] 4 = .err :=
  C125_odd_name_violated (s "d") (s "d") false (.cons (s "0-99.csv.gz") false false .nil exTree) (s "d/0-99.csv.gz") (s "0-99.csv.gz")
    (show Below _ _ _ (Tree.cons _ _ _ _ _) from Or.inl ⟨rfl, by decide, rfl⟩) ex_odd _ _

end Fpki.LocalList
