import Verif.Model.RecordInlining

/-!
# What the inlining of records is to do
-/

namespace Marco.Spec.RecInl
open Marco.RecInl

/-- An index is one of a subscript. -/
def Matches : Sub → Nat → Prop
  | .idx i, n => n = i
  | .range b e, n => b ≤ n ∧ n < e
  | .all, _ => True

/-- The indices are in the subscripts; there are no more subscripts than indices. -/
def Hits (subs : List Sub) (idx : List Nat) : Prop :=
  subs.length ≤ idx.length ∧ ∀ (k : Nat) s i, subs[k]? = some s → idx[k]? = some i → Matches s i

/-- The name of the variable for a component. -/
def flatName : List String → String
  | [] => ""
  | [a] => a
  | a :: b :: rest => flatName ((a ++ "." ++ b) :: rest)
termination_by l => l.length

/-- The elements that an assignment to a component reference sets. -/
def Sets (dest : List (String × List Sub)) (idx : List (List Nat)) : Prop :=
  ∀ (k : Nat) d i, dest[k]? = some d → idx[k]? = some i → Hits d.2 i

/-- The elements that an assignment to a variable sets. -/
def Store.Sets (st : Store) (idx : List Nat) : Prop := match st.subs with
  | none => True
  | some subs => Hits subs idx

mutual
/-- The components of a record that are not records. -/
def leaves : RTy → List (List String)
  | .leaf => [[]]
  | .record fs => fieldLeaves fs
/-- The same of a list of components. -/
def fieldLeaves : List (String × RTy) → List (List String)
  | [] => []
  | (c, t) :: fs => (leaves t).map (c :: ·) ++ fieldLeaves fs
end

/-- How many new results come from a result. -/
def width : Option (List String) → Nat
  | none => 1
  | some cs => cs.length

end Marco.Spec.RecInl
