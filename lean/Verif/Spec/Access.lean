import Verif.Model.DimensionAccess

/-!
# Specification vocabulary for dimension accesses
-/

namespace Marco
namespace Spec
open Marco.DimAccess

/-- `v` is one of the values an access along one dimension may take at the point `p`, for the
given selection `env` of a point in each iteration space. Division is the one of C++
(`Int.tdiv`). -/
inductive Denotes (p : Point) (env : Env) : DimAccess → Int → Prop
  | const (v : Int) : Denotes p env (.const v) v
  | dim {d : Nat} {v : Int} : p[d]? = some v → Denotes p env (.dim d) v
  | add {a b : DimAccess} {x y : Int} : Denotes p env a x → Denotes p env b y →
      Denotes p env (.add a b) (x + y)
  | sub {a b : DimAccess} {x y : Int} : Denotes p env a x → Denotes p env b y →
      Denotes p env (.sub a b) (x - y)
  | mul {a b : DimAccess} {x y : Int} : Denotes p env a x → Denotes p env b y →
      Denotes p env (.mul a b) (x * y)
  | div {a b : DimAccess} {x y : Int} : Denotes p env a x → Denotes p env b y →
      Denotes p env (.div a b) (x.tdiv y)
  | range {r : Range} {v : Int} : InR v r → Denotes p env (.range r) v
  | indices {key : Nat} {s : IndexSet} {d : Nat} {q : Point} {v : Int} : Has s q →
      q[d]? = some v → Denotes p env (.indices key s d []) v
  | indicesDep {key : Nat} {s : IndexSet} {d : Nat} {deps : List Nat} {q : Point} {v : Int} :
      deps ≠ [] → env.lookup key = some q → q[d]? = some v →
      Denotes p env (.indices key s d deps) v

/-- The ranges and spaces an access mentions are well formed. -/
inductive DimOk : DimAccess → Prop
  | const (v : Int) : DimOk (.const v)
  | dim (d : Nat) : DimOk (.dim d)
  | add {a b : DimAccess} : DimOk a → DimOk b → DimOk (.add a b)
  | sub {a b : DimAccess} : DimOk a → DimOk b → DimOk (.sub a b)
  | mul {a b : DimAccess} : DimOk a → DimOk b → DimOk (.mul a b)
  | div {a b : DimAccess} : DimOk a → DimOk b → DimOk (.div a b)
  | range {r : Range} : r.Valid → DimOk (.range r)
  | indices {key : Nat} {s : IndexSet} {d k : Nat} {deps : List Nat} : SetOk k s → d < k →
      DimOk (.indices key s d deps)

end Spec
end Marco
