import Verif.Model.Grammar
/-!
# Equality of syntax trees is decidable
-/
namespace PJ

mutual
def Decl.same : Decl → Decl → Bool
  | .import_ i, .import_ i' => i == i'
  | .struct n e fs, .struct n' e' fs' => n == n' && e == e' && fs == fs'
  | .variant n e fs, .variant n' e' fs' => n == n' && e == e' && fs == fs'
  | .enum n e fs, .enum n' e' fs' => n == n' && e == e' && fs == fs'
  | .spec n h p, .spec n' h' p' => n == n' && h == h' && p == p'
  | .type n e t, .type n' e' t' => n == n' && e == e' && t == t'
  | .space n ds, .space n' ds' => n == n' && declsSame ds ds'
  | .language n t, .language n' t' => n == n' && t == t'
  | .portal n q is, .portal n' q' is' => n == n' && q == q' && is == is'
  | .precomp n i q, .precomp n' i' q' => n == n' && i == i' && q == q'
  | _, _ => false
termination_by structural d => d
def declsSame : List Decl → List Decl → Bool
  | [], [] => true
  | d :: ds, d' :: ds' => d.same d' && declsSame ds ds'
  | _, _ => false
termination_by structural ds => ds
end

mutual
theorem same_eq : ∀ d d' : Decl, d.same d' = true → d = d'
  | .space n ds, d', h => by
    cases d' <;> simp [Decl.same] at h
    rw [h.1, declsSame_eq _ _ h.2]
  | .import_ i, d', h => by cases d' <;> simp_all [Decl.same]
  | .struct n e fs, d', h => by cases d' <;> simp_all [Decl.same]
  | .variant n e fs, d', h => by cases d' <;> simp_all [Decl.same]
  | .enum n e fs, d', h => by cases d' <;> simp_all [Decl.same]
  | .spec n i p, d', h => by cases d' <;> simp_all [Decl.same]
  | .type n e t, d', h => by cases d' <;> simp_all [Decl.same]
  | .language n t, d', h => by cases d' <;> simp_all [Decl.same]
  | .portal n q is, d', h => by cases d' <;> simp_all [Decl.same]
  | .precomp n i q, d', h => by cases d' <;> simp_all [Decl.same]
termination_by structural d => d
theorem declsSame_eq : ∀ ds ds' : List Decl, declsSame ds ds' = true → ds = ds'
  | [], [], _ => rfl
  | d :: ds, d' :: ds', h => by
    simp only [declsSame, Bool.and_eq_true] at h
    rw [same_eq _ _ h.1, declsSame_eq _ _ h.2]
  | [], _ :: _, h => by simp [declsSame] at h
  | _ :: _, [], h => by simp [declsSame] at h
termination_by structural ds => ds
end

mutual
theorem same_refl : ∀ d : Decl, d.same d = true
  | .space n ds => by simp [Decl.same, declsSame_refl ds]
  | .import_ i => by simp [Decl.same]
  | .struct n e fs => by simp [Decl.same]
  | .variant n e fs => by simp [Decl.same]
  | .enum n e fs => by simp [Decl.same]
  | .spec n i p => by simp [Decl.same]
  | .type n e t => by simp [Decl.same]
  | .language n t => by simp [Decl.same]
  | .portal n q is => by simp [Decl.same]
  | .precomp n i q => by simp [Decl.same]
termination_by structural d => d
theorem declsSame_refl : ∀ ds : List Decl, declsSame ds ds = true
  | [] => rfl
  | d :: ds => by simp [declsSame, same_refl d, declsSame_refl ds]
termination_by structural ds => ds
end

instance : DecidableEq Decl := fun a b =>
  if h : a.same b = true then .isTrue (same_eq a b h) else .isFalse fun e => h (e ▸ same_refl a)

end PJ
