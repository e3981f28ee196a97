import Verif.Model.Jobs

/-!
# Specification: several jobs at the same time
-/

namespace QIP.Spec

open QIP

/-- `C` is the state of a system in which every job `j` is in the state `c j`, and nobody else does anything. -/
structure Together {J P Q M S : Type} (place : J → P → Q) (C : Cfg Q M (Option (J × P × S))) (c : J → Cfg P M S) : Prop where
  loc : ∀ j p, C.loc (place j p) = some (j, p, (c j).loc p)
  buf : ∀ j p q, C.buf (place j p, place j q) = (c j).buf (p, q)
  others : ∀ x, (∀ j p, place j p ≠ x) → C.loc x = none

end QIP.Spec
