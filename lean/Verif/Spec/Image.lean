import Verif.Spec.AccessFunction

/-!
# Specification vocabulary for images of index sets
-/

namespace Marco
namespace Spec

/-- The points of the domain described by an index set. For an access function without
dimensions (`n = 0`) the empty index set stands for the single point of rank zero, as there is no
other way to write it (`map(IndexSet())` of AccessFunctionAffineConstant.cpp:73-75). -/
def Pts (n : Nat) (s : IndexSet) (p : Point) : Prop :=
  Has s p ∨ (n = 0 ∧ (∀ x, ¬ Has s x) ∧ p = [])

/-- `q` is one of the images of the points of `s`. -/
def InImage (f : AccessFn) (s : IndexSet) (q : Point) : Prop :=
  ∃ p, Pts f.dims s p ∧ ∃ t, f.mapPoint p = some t ∧ Has t q

/-- Well-formed offset/permutation and constant access functions. -/
inductive SimpleOk : AccessFn → Prop
  | roto {m : AffineMap} : RotoOk m → SimpleOk (.roto m)
  | affConst (n : Nat) {cs : List Int} : cs ≠ [] → SimpleOk (.affConst ⟨n, cs.map .const⟩)
  | const (n : Nat) {rs : List DimAccess} : (∀ r ∈ rs, r.isConstLike = true ∧ DimOk r) →
      SimpleOk (.const n rs)

/-- `p` is a point of the parent set whose image is contained in the accessed set. -/
def InPreimage (f : AccessFn) (acc par : IndexSet) (p : Point) : Prop :=
  Has par p ∧ ∃ t, f.mapPoint p = some t ∧ ∀ q, Has t q → Has acc q

/-- No dimension is used by two results. -/
def UsedOnce (m : AffineMap) : Prop :=
  ∀ (i j : Nat) (e e' : AExpr) (d : Nat) (c c' : Int), m.results[i]? = some e →
    m.results[j]? = some e' → Roto m.dims e (some d) c → Roto m.dims e' (some d) c' → i = j

end Spec
end Marco
