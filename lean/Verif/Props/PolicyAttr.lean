import Verif.Model.PolicyAttr
import Verif.Props.Domain

/-!
# C43, C44: policy attributes
-/
namespace Fpki.PolicyAttr

open Fpki.Domain (dot star split asc)

/-! ## Specification -/

/-- The labels of a name, without the empty label of a trailing dot. -/
def labels (d : Bytes) : List Bytes := split (if [dot].isSuffixOf d then d.take (d.length - 1) else d)

/-- `l` is the label that comes right before the policy's domain in the name. -/
def IsNextLabel (policyDomain domain l : Bytes) : Prop := ∃ pre, labels domain = pre ++ l :: labels policyDomain

/-- The lists name the label. -/
def Named (a : Attributes) (l : Bytes) : Prop := l ∈ a.allowed ∨ l ∈ a.disallowed ∨ l ∈ a.excluded

/-- A label or wildcard `x` of the three lists decides this: allowed before disallowed before excluded. -/
inductive Decides (a : Attributes) (x : Bytes) : Verdict → Prop
  | allowed : x ∈ a.allowed → Decides a x .allowed
  | disallowed : x ∉ a.allowed → x ∈ a.disallowed → Decides a x .disallowed
  | excluded : x ∉ a.allowed → x ∉ a.disallowed → x ∈ a.excluded → Decides a x .excluded

/-- What the attributes say about a name: the label before the policy's domain decides, if it is named, else the wildcard, else it is allowed. -/
inductive Says (a : Attributes) (policyDomain domain : Bytes) : Verdict → Prop
  | exact {l : Bytes} {v : Verdict} : IsNextLabel policyDomain domain l → Decides a l v → Says a policyDomain domain v
  | wildcard {l : Bytes} {v : Verdict} : IsNextLabel policyDomain domain l → ¬ Named a l → Decides a [star] v → Says a policyDomain domain v
  | default {l : Bytes} : IsNextLabel policyDomain domain l → ¬ Named a l → ¬ Named a [star] → Says a policyDomain domain .allowed
  | foreign : (∀ l, ¬ IsNextLabel policyDomain domain l) → Says a policyDomain domain .notApplicable

/-! ## Proofs -/

theorem labelVerdict_says {a : Attributes} {p d l : Bytes} (h : IsNextLabel p d l) : Says a p d (labelVerdict a l) := by
  unfold labelVerdict
  simp only [List.contains_iff_mem]
  split
  · exact .exact h (.allowed (by assumption))
  · split
    · exact .exact h (.disallowed (by assumption) (by assumption))
    · split
      · exact .exact h (.excluded (by assumption) (by assumption) (by assumption))
      · have hn : ¬ Named a l := by rintro (h | h | h) <;> contradiction
        split
        · exact .wildcard h hn (.allowed (by assumption))
        · split
          · exact .wildcard h hn (.disallowed (by assumption) (by assumption))
          · split
            · exact .wildcard h hn (.excluded (by assumption) (by assumption) (by assumption))
            · exact .default h hn (by rintro (h | h | h) <;> contradiction)

theorem cutSuffix_dot (d : Bytes) : split (cutSuffix d [dot]).1 = labels d := by
  unfold cutSuffix labels
  split <;> rfl

theorem split_append_dot : ∀ (s t : Bytes), split (s ++ dot :: t) = split s ++ split t
  | [], t => by simp [split]
  | c :: s, t => by
    have ih := split_append_dot s t
    show split (c :: (s ++ dot :: t)) = split (c :: s) ++ split t
    by_cases hc : c = dot
    · simp only [split, hc, if_true]
      rw [ih]; rfl
    · simp only [split, hc, if_false]
      rw [ih]
      cases hs : split s with
      | nil => exact absurd hs (Domain.split_ne_nil s)
      | cons x xs => rfl

theorem split_inj {s t : Bytes} (h : split s = split t) : s = t := by
  rw [← Domain.joinDots_split s, ← Domain.joinDots_split t, h]

theorem suffix_iff_labels (d p : Bytes) : (dot :: p) <:+ d ↔ ∃ pre l, split d = pre ++ l :: split p := by
  constructor
  · rintro ⟨t, ht⟩
    refine ⟨(split t).dropLast, (split t).getLast (Domain.split_ne_nil t), ?_⟩
    rw [← ht, split_append_dot]
    conv_lhs => rw [← List.dropLast_append_getLast (Domain.split_ne_nil t)]
    simp
  · rintro ⟨pre, l, h⟩
    refine ⟨Domain.joinDots (pre ++ [l]), ?_⟩
    have h2 : split d = (pre ++ [l]) ++ split p := by rw [h]; simp
    apply split_inj
    rw [split_append_dot, h2]
    congr 1
    have hnd : ∀ x ∈ pre ++ [l], dot ∉ x := by
      intro x hx
      apply Domain.split_nodot (s := d)
      rw [h2]
      exact List.mem_append_left _ hx
    rw [Domain.split_joinDots (by simp) hnd]

theorem isNextLabel_unique {p d l l' : Bytes} (h : IsNextLabel p d l) (h' : IsNextLabel p d l') : l = l' := by
  obtain ⟨pre, h1⟩ := h
  obtain ⟨pre', h2⟩ := h'
  rw [h1] at h2
  have hlen : pre.length = pre'.length := by
    have := congrArg List.length h2
    simp at this
    omega
  have := (List.append_inj h2 hlen).2
  simpa using this

/-- C43: `CheckDomainValidity` returns what the attributes say, for all attributes and names. -/
theorem C43_check (a : Attributes) (p d : Bytes) : Says a p d (checkDomainValidity a p d) := by
  unfold checkDomainValidity
  dsimp only
  generalize hp : (cutSuffix p [dot]).1 = p'
  generalize hd : (cutSuffix d [dot]).1 = d'
  have hlp : labels p = split p' := by rw [← hp, cutSuffix_dot]
  have hld : labels d = split d' := by rw [← hd, cutSuffix_dot]
  by_cases hs : (dot :: p').isSuffixOf d' = true
  · obtain ⟨t, ht⟩ := List.isSuffixOf_iff_suffix.mp hs
    have hc : cutSuffix d' (dot :: p') = (t, true) := by
      unfold cutSuffix
      rw [if_pos hs, ← ht]
      simp
    rw [hc]
    dsimp only
    apply labelVerdict_says
    refine ⟨(split t).dropLast, ?_⟩
    rw [hld, hlp, ← ht, split_append_dot]
    rw [List.getLast?_eq_some_getLast (Domain.split_ne_nil t)]
    simp only [Option.getD_some]
    conv_lhs => rw [← List.dropLast_append_getLast (Domain.split_ne_nil t)]
    simp
  · have hc : cutSuffix d' (dot :: p') = (d', false) := by
      unfold cutSuffix
      rw [if_neg hs]
    rw [hc]
    dsimp only
    apply Says.foreign
    rintro l ⟨pre, h⟩
    apply hs
    rw [List.isSuffixOf_iff_suffix]
    exact (suffix_iff_labels d' p').mpr ⟨pre, l, by rw [← hld, ← hlp]; exact h⟩

theorem Decides.unique {a : Attributes} {x : Bytes} {v v' : Verdict} (h : Decides a x v) (h' : Decides a x v') : v = v' := by
  cases h <;> cases h' <;> first | rfl | contradiction

theorem Decides.named {a : Attributes} {x : Bytes} {v : Verdict} (h : Decides a x v) : Named a x := by
  cases h
  · exact Or.inl (by assumption)
  · exact Or.inr (Or.inl (by assumption))
  · exact Or.inr (Or.inr (by assumption))

/-- The specification leaves no choice: so `C43_check` determines the result. -/
theorem C43_says_unique {a : Attributes} {p d : Bytes} {v v' : Verdict} (h : Says a p d v) (h' : Says a p d v') : v = v' := by
  cases h with
  | exact h1 h2 =>
    cases h' with
    | exact g1 g2 => have := isNextLabel_unique h1 g1; subst this; exact h2.unique g2
    | wildcard g1 g2 g3 => have := isNextLabel_unique h1 g1; subst this; exact absurd h2.named g2
    | default g1 g2 g3 => have := isNextLabel_unique h1 g1; subst this; exact absurd h2.named g2
    | foreign g => exact absurd h1 (g _)
  | wildcard h1 h2 h3 =>
    cases h' with
    | exact g1 g2 => have := isNextLabel_unique h1 g1; subst this; exact absurd g2.named h2
    | wildcard g1 g2 g3 => exact h3.unique g3
    | default g1 g2 g3 => exact absurd h3.named g3
    | foreign g => exact absurd h1 (g _)
  | default h1 h2 h3 =>
    cases h' with
    | exact g1 g2 => have := isNextLabel_unique h1 g1; subst this; exact absurd g2.named h2
    | wildcard g1 g2 g3 => exact absurd g3.named h3
    | default g1 g2 g3 => rfl
    | foreign g => exact absurd h1 (g _)
  | foreign h =>
    cases h' with
    | exact g1 g2 => exact absurd g1 (h _)
    | wildcard g1 g2 g3 => exact absurd g1 (h _)
    | default g1 g2 g3 => exact absurd g1 (h _)
    | foreign g => rfl

/-- C43: a policy says nothing about its own domain (written with or without a trailing dot). -/
theorem C43_own_domain (a : Attributes) (p d : Bytes) (h : labels p = labels d) : checkDomainValidity a p d = .notApplicable := by
  refine C43_says_unique (C43_check a p d) (.foreign ?_)
  rintro l ⟨pre, h1⟩
  rw [h] at h1
  have := congrArg List.length h1
  simp at this
  omega

/-- C43: the verdict is the same for all names below the same child of the policy's domain. -/
theorem C43_whole_subtree (a : Attributes) (p d d' l : Bytes) (h : IsNextLabel p d l) (h' : IsNextLabel p d' l) : checkDomainValidity a p d = checkDomainValidity a p d' := by
  have h1 := C43_check a p d
  refine C43_says_unique h1 ?_
  have h2 := C43_check a p d'
  generalize checkDomainValidity a p d' = v at h2
  cases h2 with
  | exact g1 g2 => have := isNextLabel_unique g1 h'; subst this; exact .exact h g2
  | wildcard g1 g2 g3 => have := isNextLabel_unique g1 h'; subst this; exact .wildcard h g2 g3
  | default g1 g2 g3 => have := isNextLabel_unique g1 h'; subst this; exact .default h g2 g3
  | foreign g => exact absurd h' (g _)

/-! ## ValidateAttributes -/

theorem addAll_length_le (xs : List Bytes) : ∀ m, (addAll m xs).length ≤ m.length + xs.length := by
  induction xs with
  | nil => intro m; simp [addAll]
  | cons x xs ih =>
    intro m
    show (addAll (setAdd m x) xs).length ≤ _
    have := ih (setAdd m x)
    have h2 : (setAdd m x).length ≤ m.length + 1 := by unfold setAdd; split <;> simp
    simp only [List.length_cons]
    omega

theorem mem_addAll (xs : List Bytes) : ∀ m y, y ∈ addAll m xs ↔ y ∈ m ∨ y ∈ xs := by
  induction xs with
  | nil => intro m y; simp [addAll]
  | cons x xs ih =>
    intro m y
    show y ∈ addAll (setAdd m x) xs ↔ _
    rw [ih]
    unfold setAdd
    split
    · rename_i hc
      have hx : x ∈ m := by simpa using hc
      constructor
      · rintro (h | h)
        · exact Or.inl h
        · exact Or.inr (List.mem_cons_of_mem _ h)
      · rintro (h | h)
        · exact Or.inl h
        · rcases List.mem_cons.mp h with h | h
          · subst h; exact Or.inl hx
          · exact Or.inr h
    · simp only [List.mem_cons]
      tauto

theorem addAll_full (xs : List Bytes) : ∀ m, (addAll m xs).length = m.length + xs.length ↔ xs.Nodup ∧ ∀ x ∈ xs, x ∉ m := by
  induction xs with
  | nil => intro m; simp [addAll]
  | cons x xs ih =>
    intro m
    show (addAll (setAdd m x) xs).length = _ ↔ _
    by_cases hx : x ∈ m
    · have hs : setAdd m x = m := by unfold setAdd; rw [if_pos (by simpa using hx)]
      rw [hs]
      have := addAll_length_le xs m
      constructor
      · intro h; simp only [List.length_cons] at h; omega
      · intro h; exact absurd hx (h.2 x List.mem_cons_self)
    · have hs : setAdd m x = x :: m := by unfold setAdd; rw [if_neg (by simpa using hx)]
      rw [hs]
      have := ih (x :: m)
      simp only [List.length_cons] at this ⊢
      rw [show m.length + (xs.length + 1) = m.length + 1 + xs.length by omega, this]
      simp only [List.nodup_cons, List.mem_cons]
      constructor
      · rintro ⟨h1, h2⟩
        refine ⟨⟨fun h => (h2 x h) (Or.inl rfl), h1⟩, ?_⟩
        rintro y (h | h)
        · subst h; exact hx
        · exact fun hm => h2 y h (Or.inr hm)
      · rintro ⟨⟨h1, h2⟩, h3⟩
        refine ⟨h2, fun y hy hc => ?_⟩
        rcases hc with hc | hc
        · subst hc; exact h1 hy
        · exact h3 y (Or.inr hy) hc

theorem addAll_append (m xs ys : List Bytes) : addAll (addAll m xs) ys = addAll m (xs ++ ys) := by
  unfold addAll; rw [List.foldl_append]

/-- C44: accepted are exactly the attributes in which no CA is listed twice, and no label twice, be it in one of the three lists or in two of them. -/
theorem C44_validate (a : Attributes) : validateAttributes a = true ↔ a.allowedCAs.Nodup ∧ (a.allowed ++ a.disallowed ++ a.excluded).Nodup := by
  unfold validateAttributes
  dsimp only
  rw [addAll_append, addAll_append, ← List.append_assoc]
  have h1 := addAll_length_le a.allowedCAs []
  have h2 := addAll_full a.allowedCAs []
  have h3 := addAll_length_le (a.allowed ++ a.disallowed ++ a.excluded) []
  have h4 := addAll_full (a.allowed ++ a.disallowed ++ a.excluded) []
  simp only [List.length_nil, Nat.zero_add, List.not_mem_nil, not_false_eq_true, implies_true, and_true, List.length_append] at h1 h2 h3 h4
  split
  · rename_i hc
    simp only [Bool.false_eq_true, false_iff]
    intro h
    have := h2.mpr h.1
    omega
  · rename_i hc
    split
    · rename_i hd
      simp only [Bool.false_eq_true, false_iff]
      intro h
      have := h4.mpr h.2
      omega
    · rename_i hd
      simp only [true_iff]
      exact ⟨h2.mp (by omega), h4.mp (by omega)⟩

/-- C44: in accepted attributes each label is in one list only, so the order of the checks does not matter: a label of a list gets the verdict of that list. -/
theorem C44_unambiguous (a : Attributes) (h : validateAttributes a = true) (p d l : Bytes) (hl : IsNextLabel p d l) :
    (l ∈ a.allowed → checkDomainValidity a p d = .allowed) ∧ (l ∈ a.disallowed → checkDomainValidity a p d = .disallowed) ∧ (l ∈ a.excluded → checkDomainValidity a p d = .excluded) := by
  have hn := ((C44_validate a).mp h).2
  rw [List.append_assoc, List.nodup_append] at hn
  obtain ⟨_, h2, h3⟩ := hn
  rw [List.nodup_append] at h2
  obtain ⟨_, _, h5⟩ := h2
  refine ⟨fun hm => ?_, fun hm => ?_, fun hm => ?_⟩
  · exact C43_says_unique (C43_check a p d) (.exact hl (.allowed hm))
  · refine C43_says_unique (C43_check a p d) (.exact hl (.disallowed ?_ hm))
    exact fun hc => h3 l hc l (List.mem_append_left _ hm) rfl
  · refine C43_says_unique (C43_check a p d) (.exact hl (.excluded ?_ ?_ hm))
    · exact fun hc => h3 l hc l (List.mem_append_right _ hm) rfl
    · exact fun hc => h5 l hc l hm rfl

/-- Finding: an entry that contains a dot is accepted by `ValidateAttributes` (its comment allows single labels only), but never matches: a disallowed `a.b` is silently ignored. -/
theorem C43_dotted_entry_ignored (a : Attributes) (e : Bytes) (he : dot ∈ e) (p d : Bytes) :
    checkDomainValidity { a with disallowed := e :: a.disallowed } p d = checkDomainValidity a p d := by
  refine C43_says_unique (C43_check _ p d) ?_
  have h := C43_check a p d
  generalize checkDomainValidity a p d = v at h
  have hne : ∀ l, IsNextLabel p d l → l ≠ e := by
    rintro l ⟨pre, hl⟩ hc
    subst hc
    exact Domain.split_nodot (s := if [dot].isSuffixOf d then d.take (d.length - 1) else d) l (by unfold labels at hl; rw [hl]; simp) he
  have hstar : ([star] : Bytes) ≠ e := by
    intro hc
    rw [← hc] at he
    simp [dot, star] at he
  have hd : ∀ {x v}, x ≠ e → Decides a x v → Decides { a with disallowed := e :: a.disallowed } x v := by
    intro x v hx h
    cases h with
    | allowed h => exact .allowed h
    | disallowed h1 h2 => exact .disallowed h1 (List.mem_cons_of_mem _ h2)
    | excluded h1 h2 h3 => exact .excluded h1 (fun hc => by rcases List.mem_cons.mp hc with hc | hc; exacts [hx hc, h2 hc]) h3
  have hn : ∀ {x}, x ≠ e → ¬ Named a x → ¬ Named { a with disallowed := e :: a.disallowed } x := by
    intro x hx h hc
    rcases hc with hc | hc | hc
    · exact h (Or.inl hc)
    · rcases List.mem_cons.mp hc with hc | hc
      · exact hx hc
      · exact h (Or.inr (Or.inl hc))
    · exact h (Or.inr (Or.inr hc))
  cases h with
  | exact h1 h2 => exact .exact h1 (hd (hne _ h1) h2)
  | wildcard h1 h2 h3 => exact .wildcard h1 (hn (hne _ h1) h2) (hd hstar h3)
  | default h1 h2 h3 => exact .default h1 (hn (hne _ h1) h2) (hn hstar h3)
  | foreign h => exact .foreign h

/-- Finding: DNS names are case-insensitive, the comparison is not: a disallowed `admin` does not stop `Admin`. -/
theorem C43_case_violated : checkDomainValidity ⟨[], [], [asc "admin"], []⟩ (asc "example.com") (asc "admin.example.com") = .disallowed ∧
    checkDomainValidity ⟨[], [], [asc "admin"], []⟩ (asc "example.com") (asc "Admin.example.com") = .allowed := by decide +kernel

/-- Attributes with all kinds of entries. -/
def exAttr : Attributes := ⟨[asc "CA"], [asc "www"], [[star]], [asc "dev"]⟩

example : validateAttributes exAttr = true := by decide +kernel
example : checkDomainValidity exAttr (asc "example.com") (asc "a.www.example.com.") = .allowed := by decide +kernel
example : checkDomainValidity exAttr (asc "example.com.") (asc "mail.example.com") = .disallowed := by decide +kernel
example : checkDomainValidity exAttr (asc "example.com") (asc "x.dev.example.com") = .excluded := by decide +kernel
example : checkDomainValidity exAttr (asc "example.com") (asc "xexample.com") = .notApplicable := by decide +kernel
example : IsNextLabel (asc "example.com") (asc "a.www.example.com") (asc "www") := ⟨[asc "a"], by decide +kernel⟩
example : labels (asc "example.com.") = labels (asc "example.com") := by decide +kernel

end Fpki.PolicyAttr
