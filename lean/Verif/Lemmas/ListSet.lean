/-! # Replacing one element of a list -/
namespace Fpki

theorem flatMap_set_perm {f : β → List γ} {l : List β} {i : Nat} {a b : β} (h : l[i]? = some a) :
    (f a ++ (l.set i b).flatMap f).Perm (f b ++ l.flatMap f) := by
  induction l generalizing i with
  | nil => simp at h
  | cons x xs ih =>
    cases i with
    | zero =>
      simp at h; subst h
      simp only [List.set_cons_zero, List.flatMap_cons]
      rw [← List.append_assoc, ← List.append_assoc]
      exact List.Perm.append_right _ List.perm_append_comm
    | succ i =>
      simp only [List.getElem?_cons_succ] at h
      simp only [List.set_cons_succ, List.flatMap_cons]
      have h1 := (ih h).append_left (f x)
      have h2 : (f a ++ (f x ++ (xs.set i b).flatMap f)).Perm (f x ++ (f a ++ (xs.set i b).flatMap f)) := by
        rw [← List.append_assoc, ← List.append_assoc]
        exact List.Perm.append_right _ List.perm_append_comm
      have h3 : (f x ++ (f b ++ xs.flatMap f)).Perm (f b ++ (f x ++ xs.flatMap f)) := by
        rw [← List.append_assoc, ← List.append_assoc]
        exact List.Perm.append_right _ List.perm_append_comm
      exact h2.trans (h1.trans h3)

theorem sum_set {f : β → Nat} {l : List β} {i : Nat} {a b : β} (h : l[i]? = some a) :
    ((l.set i b).map f).sum + f a = (l.map f).sum + f b := by
  induction l generalizing i with
  | nil => simp at h
  | cons x xs ih =>
    cases i with
    | zero =>
      simp at h; subst h
      simp only [List.set_cons_zero, List.map_cons, List.sum_cons]
      omega
    | succ i =>
      simp only [List.getElem?_cons_succ] at h
      simp only [List.set_cons_succ, List.map_cons, List.sum_cons]
      have := ih h
      omega

end Fpki
