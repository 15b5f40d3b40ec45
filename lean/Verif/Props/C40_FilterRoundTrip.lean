import Verif.Lemmas.VariableFilter
import Mathlib.Tactic.IntervalCases

/-! # C40: reading the text of a variable filter gives the filter

False for bounds from `2 ^ 31` on, which are truncated to `int` (the index type is `long`); proved
for smaller bounds.
-/

namespace Marco.Props
open Marco.VF Spec

/-- The claim, for all bounds that fit the index type. -/
def C40_full : Prop := ∀ (valid : Name → Bool) (items : List Item) (t : List Char),
  FilterText items t → (∀ i ∈ items, LegalItem valid (2 ^ 63) i) →
  ∃ f, fromString valid t = some (some f) ∧ FilterDenotes f items

theorem legalItem_mono {valid : Name → Bool} {i : Item} (h : LegalItem valid (2 ^ 31) i) :
    LegalItem valid (2 ^ 63) i := by
  have hb : ∀ b, BoundOk (2 ^ 31) b → BoundOk (2 ^ 63) b := fun b hb k hk => by
    have := hb k hk
    have : (2:Nat) ^ 31 < 2 ^ 63 := by norm_num
    omega
  cases i with
  | var s => exact h
  | array s rs => exact ⟨h.1, h.2.1, fun r hr => ⟨hb _ (h.2.2 r hr).1, hb _ (h.2.2 r hr).2⟩⟩
  | der s => exact h
  | regex r => exact h

/-- Missing with respect to `C40_full`: bounds from `2 ^ 31` on. -/
theorem C40_roundtrip_partial (valid : Name → Bool) (items : List Item) (t : List Char)
    (ht : FilterText items t) (hl : ∀ i ∈ items, LegalItem valid (2 ^ 31) i) :
    ∃ f, fromString valid t = some (some f) ∧ FilterDenotes f items := by
  obtain ⟨ts, h1, h2⟩ := lex_filter valid items t ht (fun i hi => legalItem_mono (hl i hi))
  refine ⟨items.foldl addItem {}, ?_, ?_⟩
  · simp only [fromString, lex_feed h1, Option.bind_eq_bind, Option.bind_some]
    rw [parse_filter valid items hl _ h2 {} _ (by omega)]
  · have := denotes_foldl items [] {} ⟨by simp, by simp, by simp, by simp⟩
    simpa using this

theorem numVal_snoc (ds : List Char) (c : Char) : numVal (ds ++ [c]) = numVal ds * 10 + (c.toNat - 48) := by
  induction ds with
  | nil => simp [numVal]
  | cons d ds ih =>
    simp only [List.cons_append, numVal, ih, List.length_append, List.length_cons, List.length_nil]
    ring

/-- Every number can be written. -/
theorem exists_digits (n : Nat) : ∃ ds, Digits ds ∧ numVal ds = n := by
  have hdig : ∀ k, k < 10 → ∃ c : Char, ('0' ≤ c ∧ c ≤ '9') ∧ c.toNat - 48 = k := by
    intro k hk
    interval_cases k
    · exact ⟨'0', by decide⟩
    · exact ⟨'1', by decide⟩
    · exact ⟨'2', by decide⟩
    · exact ⟨'3', by decide⟩
    · exact ⟨'4', by decide⟩
    · exact ⟨'5', by decide⟩
    · exact ⟨'6', by decide⟩
    · exact ⟨'7', by decide⟩
    · exact ⟨'8', by decide⟩
    · exact ⟨'9', by decide⟩
  induction n using Nat.strongRecOn with
  | ind n ih =>
    by_cases hn : n < 10
    · obtain ⟨c, hc, hv⟩ := hdig n hn
      exact ⟨[c], ⟨by simp, by simpa using hc⟩, by simpa [numVal] using hv⟩
    · obtain ⟨ds, hd, hv⟩ := ih (n / 10) (by omega)
      obtain ⟨c, hc, hcv⟩ := hdig (n % 10) (by omega)
      refine ⟨ds ++ [c], ⟨by simp, ?_⟩, ?_⟩
      · intro d hd'
        rcases List.mem_append.1 hd' with h | h
        · exact hd.2 d h
        · simp only [List.mem_singleton] at h; subst h; exact hc
      · rw [numVal_snoc, hv, hcv]; omega

/-- Every list of legal elements has a text, so the theorem applies to all of them. -/
theorem C40_text_exists (valid : Name → Bool) (b : Nat) (items : List Item)
    (hl : ∀ i ∈ items, LegalItem valid b i) : ∃ t, FilterText items t := by
  have hbound : ∀ n, ∃ t, BoundText n t := by
    intro n
    cases n with
    | none => exact ⟨_, .unbounded⟩
    | some n =>
      obtain ⟨ds, hd, rfl⟩ := exists_digits n
      exact ⟨ds, .number ds hd⟩
  have hrange : ∀ r, ∃ t, RangeText r t := by
    rintro ⟨lo, hi⟩
    obtain ⟨t, ht⟩ := hbound lo
    obtain ⟨u, hu⟩ := hbound hi
    exact ⟨_, .mk lo hi t u ht hu⟩
  have hranges : ∀ rs, rs ≠ [] → ∃ t, RangesText rs t := by
    intro rs hne
    induction rs with
    | nil => exact absurd rfl hne
    | cons r rs ih =>
      obtain ⟨t, ht⟩ := hrange r
      cases rs with
      | nil => exact ⟨t, .one r t ht⟩
      | cons r' rs' =>
        obtain ⟨u, hu⟩ := ih (by simp)
        exact ⟨_, .cons r _ t u ht hu⟩
  induction items with
  | nil => exact ⟨[], .nil⟩
  | cons i is ih =>
    obtain ⟨u, hu⟩ := ih (fun i hi => hl i (by simp [hi]))
    have : ∃ t, ItemText i t := by
      have hi := hl i (by simp)
      cases i with
      | var s => exact ⟨_, .var s⟩
      | array s rs =>
        obtain ⟨t, ht⟩ := hranges rs hi.2.1
        exact ⟨_, .array s rs t ht⟩
      | der s => exact ⟨_, .der s⟩
      | regex r => exact ⟨_, .regex r⟩
    obtain ⟨t, ht⟩ := this
    exact ⟨_, .cons i is t u ht hu⟩

theorem legal_x : LegalName ['x'] :=
  ⟨by decide, 'x', [], rfl, Or.inl (by decide), by simp⟩

/-- `x[1:4294967295]` is read as `x[1:$]`. -/
theorem C40_full_false : ¬ C40_full := by
  intro h
  obtain ⟨f, hf, hd⟩ := h (fun _ => true)
    [.array ['x'] [(some (numVal ['1']), some (numVal "4294967295".toList))]]
    "x[1:4294967295]".toList
    (.one _ _ (.array _ _ (['1'] ++ ':' :: "4294967295".toList) (.one _ _ (.mk _ _ _ _
      (.number _ ⟨by decide, by decide⟩) (.number _ ⟨by decide, by decide +kernel⟩)))))
    (by
      intro i hi
      simp only [List.mem_singleton] at hi
      subst hi
      refine ⟨legal_x, by simp, ?_⟩
      intro r hr
      simp only [List.mem_singleton] at hr
      subst hr
      refine ⟨?_, ?_⟩
      · intro k hk; cases hk; decide
      · intro k hk; cases hk; decide +kernel)
  have hv := congrArg (fun o => o.map fun p => p.map fun f => f.vars ['x']) hf
  simp only [Option.map_some, hd.1] at hv
  revert hv
  decide +kernel

/-- Four elements of different kinds. -/
example : ∃ f, fromString (fun _ => true) "a.b;c[1:$,2:07];der(d);/e*f/;".toList = some (some f) ∧
    FilterDenotes f [.var "a.b".toList,
      .array ['c'] [(some (numVal ['1']), none), (some (numVal ['2']), some (numVal ['0', '7']))],
      .der ['d'], .regex "e*f".toList] := by
  have legal : ∀ c ∈ ['c', 'd'], LegalName [c] := by
    intro c hc
    simp only [List.mem_cons, List.not_mem_nil, or_false] at hc
    rcases hc with rfl | rfl <;> exact ⟨by decide, _, [], rfl, Or.inl (by decide), by simp⟩
  refine C40_roundtrip_partial _ _ _
    (.cons _ _ "a.b".toList _ (.var _) (.cons _ _ "c[1:$,2:07]".toList _
      (.array _ _ "1:$,2:07".toList (.cons _ _ "1:$".toList _
        (.mk _ _ ['1'] _ (.number _ ⟨by decide, by decide⟩) .unbounded)
        (.one _ _ (.mk _ _ ['2'] ['0', '7'] (.number _ ⟨by decide, by decide⟩)
          (.number _ ⟨by decide, by decide⟩)))))
      (.cons _ _ "der(d)".toList _ (.der ['d']) (.cons _ _ "/e*f/".toList [] (.regex _) .nil)))) ?_
  intro i hi
  simp only [List.mem_cons, List.not_mem_nil, or_false] at hi
  rcases hi with rfl | rfl | rfl | rfl
  · refine ⟨by decide +kernel, 'a', ['.', 'b'], rfl, Or.inl (by decide), ?_⟩
    intro d hd
    simp only [List.mem_cons, List.not_mem_nil, or_false] at hd
    rcases hd with rfl | rfl
    · exact Or.inr (Or.inr rfl)
    · exact Or.inl (Or.inl (by decide))
  · refine ⟨legal _ (by simp), by simp, ?_⟩
    intro r hr
    simp only [List.mem_cons, List.not_mem_nil, or_false] at hr
    rcases hr with rfl | rfl
    · exact ⟨fun k hk => by cases hk; decide, fun k hk => by cases hk⟩
    · exact ⟨fun k hk => by cases hk; decide, fun k hk => by cases hk; decide⟩
  · exact legal _ (by simp)
  · exact ⟨by decide +kernel, by decide +kernel, by decide +kernel, rfl⟩

end Marco.Props
