import Verif.Model.VariableFilter
import Verif.Spec.Lexer

/-! # Variable filters: textual form and meaning -/

namespace Marco.Spec
open Marco.VF

/-- A letter or underscore. -/
def Letter (c : Char) : Prop := ('a' ≤ c ∧ c ≤ 'z') ∨ ('A' ≤ c ∧ c ≤ 'Z') ∨ c = '_'

/-- A name that can be written in a filter: a letter followed by letters, digits and dots, not the
keyword `der`. -/
def LegalName (s : List Char) : Prop :=
  s ≠ ['d', 'e', 'r'] ∧ ∃ c cs, s = c :: cs ∧ Letter c ∧
    ∀ d ∈ cs, Letter d ∨ ('0' ≤ d ∧ d ≤ '9') ∨ d = '.'

/-- An element of a filter; a bound is a number or missing. -/
inductive Item where
  | var (name : List Char)
  | array (name : List Char) (ranges : List (Option Nat × Option Nat))
  | der (name : List Char)
  | regex (r : List Char)

/-- The text of a bound. -/
inductive BoundText : Option Nat → List Char → Prop
  | unbounded : BoundText none ['$']
  | number (ds : List Char) : Digits ds → BoundText (some (numVal ds)) ds

/-- The text of a range. -/
inductive RangeText : Option Nat × Option Nat → List Char → Prop
  | mk (lo hi : Option Nat) (t u : List Char) : BoundText lo t → BoundText hi u →
      RangeText (lo, hi) (t ++ ':' :: u)

/-- The text of a list of ranges. -/
inductive RangesText : List (Option Nat × Option Nat) → List Char → Prop
  | one (r : Option Nat × Option Nat) (t : List Char) : RangeText r t → RangesText [r] t
  | cons (r : Option Nat × Option Nat) (rs : List (Option Nat × Option Nat)) (t u : List Char) :
      RangeText r t → RangesText rs u → RangesText (r :: rs) (t ++ ',' :: u)

/-- The text of an element. -/
inductive ItemText : Item → List Char → Prop
  | var (name : List Char) : ItemText (.var name) name
  | array (name : List Char) (rs : List (Option Nat × Option Nat)) (t : List Char) :
      RangesText rs t → ItemText (.array name rs) (name ++ ['['] ++ t ++ [']'])
  | der (name : List Char) : ItemText (.der name) (['d', 'e', 'r', '('] ++ name ++ [')'])
  | regex (r : List Char) : ItemText (.regex r) (['/'] ++ r ++ ['/'])

/-- The text of a filter: the elements separated (the last one possibly ended) by semicolons. -/
inductive FilterText : List Item → List Char → Prop
  | nil : FilterText [] []
  | one (i : Item) (t : List Char) : ItemText i t → FilterText [i] t
  | cons (i : Item) (is : List Item) (t u : List Char) : ItemText i t → FilterText is u →
      FilterText (i :: is) (t ++ ';' :: u)

/-- A bound below `b`. -/
def BoundOk (b : Nat) (n : Option Nat) : Prop := ∀ k, n = some k → k < b

/-- An element that can be written: legal names, bounds below `b`, regular expressions that are
valid and contain no slash. -/
def LegalItem (valid : List Char → Bool) (b : Nat) : Item → Prop
  | .var s => LegalName s
  | .array s rs => LegalName s ∧ rs ≠ [] ∧ ∀ r ∈ rs, BoundOk b r.1 ∧ BoundOk b r.2
  | .der s => LegalName s
  | .regex r => r ≠ [] ∧ '/' ∉ r ∧ Lex.nul ∉ r ∧ valid r = true

/-- The stored form of a bound. -/
def boundVal : Option Nat → ℤ
  | none => -1
  | some n => n

/-- The tracker of a variable that an element stands for. -/
def Item.tracker? : Item → Option Tracker
  | .var s => some ⟨s, []⟩
  | .array s rs => some ⟨s, rs.map fun r => ⟨boundVal r.1, boundVal r.2⟩⟩
  | _ => none

/-- The tracker of a derivative that an element stands for. -/
def Item.derTracker? : Item → Option Tracker
  | .der s => some ⟨s, []⟩
  | _ => none

/-- The regular expression that an element stands for. -/
def Item.regex? : Item → Option (List Char)
  | .regex r => some r
  | _ => none

/-- The filter consists of exactly these elements. -/
def FilterDenotes (f : Filter) (items : List Item) : Prop :=
  (∀ n, f.vars n = (items.filterMap Item.tracker?).filter (·.name = n)) ∧
  (∀ n, f.ders n = (items.filterMap Item.derTracker?).filter (·.name = n)) ∧
  f.regex = items.filterMap Item.regex? ∧ (f.enabled = true ↔ items ≠ [])

/-- The position lies in the range. -/
def InVRange (r : VRange) (i : ℤ) : Prop :=
  (r.lower = -1 ∨ r.lower ≤ i) ∧ (r.upper = -1 ∨ i ≤ r.upper)

/-- The ranges contain the element; dimensions without range are free, ranges without dimension are
ignored. -/
def FilterCovers (rs : List VRange) (idx : List ℤ) : Prop :=
  ∀ (k : Nat) (r : VRange) (i : ℤ), rs[k]? = some r → idx[k]? = some i → InVRange r i

/-- The element is shown according to the answer of the filter. -/
def Shown (infos : List Info) (idx : List ℤ) : Prop :=
  ∃ i ∈ infos, i.visible = true ∧ FilterCovers i.ranges idx

/-- The (0-based) element lies in the half-open box. -/
def InBoxL (b : List (ℤ × ℤ)) (idx : List ℤ) : Prop :=
  b.length = idx.length ∧
  ∀ (k : Nat) (r : ℤ × ℤ) (i : ℤ), b[k]? = some r → idx[k]? = some i → r.1 ≤ i ∧ i < r.2

end Marco.Spec
