import Verif.Props.C40_FilterRoundTrip

/-! # C42: array bounds in a variable filter keep their value

False: bounds are truncated to `int`, and 4294967295 becomes "unbounded". Proved below `2 ^ 31`.
-/

namespace Marco.Props
open Marco.VF Spec

/-- The answer of the filter `name[l:u]` for a vector `name` has the bounds `l` and `u`. -/
def C42_full : Prop := ∀ (valid : Name → Bool) (match_ : Name → Name → Bool) (name ls us : List Char),
  LegalName name → Digits ls → Digits us → numVal ls < 2 ^ 63 → numVal us < 2 ^ 63 →
  ∃ f, fromString valid (name ++ ['['] ++ (ls ++ ':' :: us) ++ [']']) = some (some f) ∧
    f.getVariableInfo match_ name 1 = [⟨true, [⟨numVal ls, numVal us⟩]⟩]

/-- The bound 4294967295 disappears. -/
theorem C42_full_false : ¬ C42_full := by
  intro h
  obtain ⟨f, hf, hi⟩ := h (fun _ => true) (fun _ _ => false) ['x'] ['1'] "4294967295".toList legal_x
    ⟨by decide, by decide⟩ ⟨by decide, by decide +kernel⟩ (by decide) (by decide +kernel)
  have hv := congrArg (fun o => o.map fun p => p.map fun f =>
    f.getVariableInfo (fun _ _ => false) ['x'] 1) hf
  simp only [Option.map_some, hi] at hv
  revert hv
  decide +kernel

/-- Missing with respect to `C42_full`: bounds from `2 ^ 31` on. -/
theorem C42_bounds_partial (valid : Name → Bool) (match_ : Name → Name → Bool) (name ls us : List Char)
    (hn : LegalName name) (hl : Digits ls) (hu : Digits us) (hfl : numVal ls < 2 ^ 31)
    (hfu : numVal us < 2 ^ 31) :
    ∃ f, fromString valid (name ++ ['['] ++ (ls ++ ':' :: us) ++ [']']) = some (some f) ∧
      f.getVariableInfo match_ name 1 = [⟨true, [⟨numVal ls, numVal us⟩]⟩] := by
  obtain ⟨f, hf, hd, _⟩ := C40_roundtrip_partial valid
    [.array name [(some (numVal ls), some (numVal us))]]
    (name ++ ['['] ++ (ls ++ ':' :: us) ++ [']'])
    (.one _ _ (.array _ _ _ (.one _ _ (.mk _ _ _ _ (.number _ hl) (.number _ hu)))))
    (by
      intro i hi
      simp only [List.mem_singleton] at hi
      subst hi
      refine ⟨hn, by simp, ?_⟩
      intro r hr
      simp only [List.mem_singleton] at hr
      subst hr
      exact ⟨fun k hk => by cases hk; exact hfl, fun k hk => by cases hk; exact hfu⟩)
  refine ⟨f, hf, ?_⟩
  have := hd name
  simp only [List.filterMap_cons, Item.tracker?, List.filterMap_nil, List.map_cons, List.map_nil,
    boundVal] at this
  simp [Filter.getVariableInfo, this, adapt]

example : ∃ f, fromString (fun _ => true) "x[3:2147483647]".toList = some (some f) ∧
    f.getVariableInfo (fun _ _ => false) ['x'] 1
      = [⟨true, [⟨numVal ['3'], numVal "2147483647".toList⟩]⟩] :=
  C42_bounds_partial (fun _ => true) (fun _ _ => false) ['x'] ['3'] "2147483647".toList legal_x
    ⟨by decide, by decide⟩ ⟨by decide, by decide +kernel⟩ (by decide) (by decide +kernel)

end Marco.Props
