import Verif.Spec.ArrayMemory
import Verif.Model.ExternalCalls

/-! # What an external function receives and what it returns -/

namespace Marco.Spec.ExtCall
open Marco.ExtCall Marco.ArrMem Marco.Spec.ArrMem

/-- The place of an element behind the pointer (Modelica 12.9.1.2): by rows, without gaps. -/
def place (ns idx : List Int) : Int :=
  match ns, idx with
  | _ :: ns, i :: idx => i * (ns.foldr (· * ·) 1) + place ns idx
  | _, _ => 0

/-- The values that the type of C can hold. -/
def Holds (w : Widths) : Ty → Int → Prop
  | .i1, v => v = 0 ∨ v = 1
  | .i64, v => -(2 ^ (w.integer - 1)) ≤ v ∧ v < 2 ^ (w.integer - 1)
  | .f64, _ => True
  | .index, v => -(2 ^ (w.index - 1)) ≤ v ∧ v < 2 ^ (w.index - 1)

/-- The elements of an array are different cells, and its sizes are not negative. -/
def Proper (m : MemRef) : Prop :=
  (∀ d ∈ m.dims, 0 ≤ d.1) ∧
    ∀ i j, Within (m.dims.map Prod.fst) i → Within (m.dims.map Prod.fst) j → m.addr i = m.addr j → i = j

/-- The elements of an array follow each other by rows from the beginning of its buffer. -/
def Plain (m : MemRef) : Prop := ∀ idx, Within (m.dims.map Prod.fst) idx → m.addr idx = place (m.dims.map Prod.fst) idx

end Marco.Spec.ExtCall
