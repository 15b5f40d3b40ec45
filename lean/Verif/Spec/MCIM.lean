import Verif.Model.MCIM
import Verif.Spec.Image
import Verif.Props.C23_InverseMap

/-!
# Specification vocabulary for incidence matrices
-/

namespace Marco
namespace Spec

/-- The access functions from points of rank `ne` to points of rank `nv` for which the incidence
matrix is exact: the offset/permutation functions that use every dimension exactly once, and the
constant ones. -/
inductive FnSimple (ne nv : Nat) : AccessFn → Prop
  | perm {m : AffineMap} : RotoOk m → UsedOnce m → Props.AllDimsUsed m → Props.NoConstResult m →
      m.dims = ne → m.results.length = nv → FnSimple ne nv (.roto m)
  | const {cs : List Int} : cs ≠ [] → cs.length = nv → 0 < ne →
      FnSimple ne nv (.affConst ⟨ne, cs.map .const⟩)

/-- A well-formed group. -/
structure GroupOk (ne nv : Nat) (g : Group) : Prop where
  keys : SetOk ne g.keys
  fn : FnSimple ne nv g.fn
  kind : g.kind = .generic ∨ (g.kind = .affConst ∧ ∃ m, g.fn = .affConst m)

/-- A well-formed incidence matrix between equations of rank `ne` and variables of rank `nv`. -/
structure MatOk (ne nv : Nat) (M : MCIM) : Prop where
  hne : 0 < ne
  hnv : 0 < nv
  eqs : SetOk ne M.eqs
  vars : SetOk nv M.vars
  eqsRank : M.eqs.rank = ne
  varsRank : M.vars.rank = nv
  groups : ∀ g ∈ M.groups, GroupOk ne nv g
  points : SetOk (ne + nv) M.points
  inside : ∀ e v, e.length = ne → Has M.points (e ++ v) → Has M.eqs e ∧ Has M.vars v

/-- A wider class of access functions: the offset/permutation functions with at most one result
per dimension (there may be unused dimensions and constant results), and the constant ones. -/
inductive FnLin (ne nv : Nat) : AccessFn → Prop
  | roto {m : AffineMap} : RotoOk m → UsedOnce m →
      (∃ e ∈ m.results, ∃ d c, Roto m.dims e (some d) c) →
      m.dims = ne → m.results.length = nv → FnLin ne nv (.roto m)
  | const {cs : List Int} : cs ≠ [] → cs.length = nv → 0 < ne →
      FnLin ne nv (.affConst ⟨ne, cs.map .const⟩)

/-- A group with an access function of the wider class. -/
structure GroupLin (ne nv : Nat) (g : Group) : Prop where
  keys : SetOk ne g.keys
  fn : FnLin ne nv g.fn
  kind : g.kind = .generic ∨ (g.kind = .affConst ∧ ∃ m, g.fn = .affConst m)

/-- An incidence matrix whose groups have access functions of the wider class. -/
structure MatLin (ne nv : Nat) (M : MCIM) : Prop where
  hne : 0 < ne
  hnv : 0 < nv
  eqs : SetOk ne M.eqs
  vars : SetOk nv M.vars
  eqsRank : M.eqs.rank = ne
  varsRank : M.vars.rank = nv
  groups : ∀ g ∈ M.groups, GroupLin ne nv g
  points : SetOk (ne + nv) M.points
  inside : ∀ e v, e.length = ne → Has M.points (e ++ v) → Has M.eqs e ∧ Has M.vars v

/-- The incidence of the equation `e` with the variable `v` is set. -/
def Inc (M : MCIM) (e v : Point) : Prop := M.get e v = some true

end Spec
end Marco
