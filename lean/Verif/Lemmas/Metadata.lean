import Verif.Spec.Metadata
import Verif.Lemmas.EquationAccesses
import Verif.Lemmas.PostOrder
import Verif.Props.C07_History
import Verif.Props.C13_Compact
import Verif.Props.C52_Printable

/-! # Lemmas on the description of the variables -/

namespace Marco.Metadata
open Marco IndexSet RTree VF Spec Spec.Meta

theorem isReserved_iff (n : Name) : isReserved n = true ↔ Reserved n := by
  simp only [isReserved, Reserved, List.isPrefixOf_iff_prefix]
  constructor
  · rintro ⟨r, rfl⟩
    exact ⟨r, rfl⟩
  · rintro ⟨r, rfl⟩
    exact ⟨r, rfl⟩

theorem not_isReserved_iff (n : Name) : (!isReserved n) = true ↔ ¬ Reserved n := by
  rw [← isReserved_iff]; simp

theorem numbered_iff : ∀ (l : List MVar) (n : Nat) (v : MVar),
    Numbered l n v ↔ (l.filter fun v => !isReserved v.name)[n]? = some v
  | [], n, v => by
    constructor
    · intro h; cases h
    · intro h; simp at h
  | w :: l, n, v => by
    by_cases hw : Reserved w.name
    · rw [List.filter_cons_of_neg (by rw [not_isReserved_iff]; exact not_not.2 hw), ← numbered_iff l n v]
      constructor
      · intro h
        cases h with
        | here h => exact absurd hw h
        | skip _ h => exact h
        | next h _ => exact absurd hw h
      · exact .skip hw
    · rw [List.filter_cons_of_pos (by rw [not_isReserved_iff]; exact hw)]
      cases n with
      | zero =>
        rw [List.getElem?_cons_zero, Option.some.injEq]
        constructor
        · intro h
          cases h with
          | here _ => rfl
          | skip h _ => exact absurd h hw
        · rintro rfl
          exact .here hw
      | succ n =>
        rw [List.getElem?_cons_succ, ← numbered_iff l n v]
        constructor
        · intro h
          cases h with
          | skip h _ => exact absurd h hw
          | next _ h => exact h
        · exact .next hw

theorem switch_eq {α : Type} {cases : List (Int × α)} {dflt a : α} {x : Int}
    (h1 : ∃ c ∈ cases, c.1 = x) (h2 : ∀ c ∈ cases, c.1 = x → c.2 = a) : switch cases dflt x = a := by
  obtain ⟨c, hc, hx⟩ := h1
  unfold switch
  cases hf : cases.find? fun c => c.1 == x with
  | none =>
    have := List.find?_eq_none.1 hf c hc
    simp [hx] at this
  | some b =>
    have hb := List.mem_of_find?_eq_some hf
    have hk := List.find?_some hf
    simp only [Option.map_some, Option.getD_some]
    exact h2 b hb (by simpa using hk)

theorem switch_dflt {α : Type} {cases : List (Int × α)} {dflt : α} {x : Int}
    (h : ∀ c ∈ cases, c.1 ≠ x) : switch cases dflt x = dflt := by
  unfold switch
  rw [List.find?_eq_none.2 fun c hc => by simpa using h c hc]
  rfl

theorem mem_enumCases {α : Type} {l : List α} {c : Int × α} :
    c ∈ enumCases l ↔ ∃ n : Nat, c.1 = n ∧ l[n]? = some c.2 := by
  simp only [enumCases, List.mem_map, Prod.exists]
  constructor
  · rintro ⟨a, n, h, rfl⟩
    exact ⟨n, rfl, by simpa using List.mem_zipIdx_iff_getElem?.1 h⟩
  · rintro ⟨n, h1, h2⟩
    exact ⟨c.2, n, List.mem_zipIdx_iff_getElem?.2 h2, by rw [← h1]⟩

theorem switch_enum {α : Type} {l : List α} {dflt a : α} {n : Nat} (h : l[n]? = some a) :
    switch (enumCases l) dflt n = a := by
  refine switch_eq ⟨((n : Int), a), mem_enumCases.2 ⟨n, rfl, h⟩, rfl⟩ ?_
  intro c hc hx
  obtain ⟨k, hk, hl⟩ := mem_enumCases.1 hc
  have : k = n := by omega
  rw [this, h] at hl
  exact (Option.some.inj hl).symm

theorem switch_enum_dflt {α : Type} {l : List α} {dflt : α} {i : Int}
    (h : ¬ (0 ≤ i ∧ i < l.length)) : switch (enumCases l) dflt i = dflt := by
  refine switch_dflt fun c hc he => h ?_
  obtain ⟨k, hk, hl⟩ := mem_enumCases.1 hc
  have := (List.getElem?_eq_some_iff.1 hl).1
  omega

theorem mem_printableVariables {infos : List PrintInfo} {n : Nat} :
    n ∈ printableVariables infos ↔ infos[n]? = some (.scalar true) ∨
      ∃ s, infos[n]? = some (.array s) ∧ s.isEmpty = false := by
  simp only [printableVariables, List.mem_filterMap, Prod.exists, List.mem_zipIdx_iff_getElem?]
  constructor
  · rintro ⟨i, k, h, he⟩
    cases i with
    | scalar b =>
      simp only [Option.ite_none_right_eq_some, Option.some.injEq] at he
      obtain ⟨rfl, rfl⟩ := he
      exact .inl h
    | array s =>
      simp only [Option.ite_none_left_eq_some, Option.some.injEq] at he
      obtain ⟨h1, rfl⟩ := he
      exact .inr ⟨s, h, by simpa using h1⟩
  · rintro (h | ⟨s, h, he⟩)
    · exact ⟨_, n, h, by simp⟩
    · exact ⟨_, n, h, by simp [he]⟩

theorem mem_printableMap {infos : List PrintInfo} {e : Nat × List Box} :
    e ∈ printableMap infos ↔
      ∃ s, infos[e.1]? = some (.array s) ∧ s.isEmpty = false ∧ e.2 = s.compactRanges := by
  simp only [printableMap, List.mem_filterMap, Prod.exists, List.mem_zipIdx_iff_getElem?]
  constructor
  · rintro ⟨i, k, h, he⟩
    cases i with
    | scalar b => simp at he
    | array s =>
      simp only [Option.ite_none_left_eq_some, Option.some.injEq] at he
      obtain ⟨h1, rfl⟩ := he
      exact ⟨s, h, by simpa using h1, rfl⟩
  · rintro ⟨s, h, he, hc⟩
    refine ⟨_, e.1, h, ?_⟩
    simp [he, ← hc]

theorem forall₂_get {α β : Type} {R : α → β → Prop} {l : List α} {r : List β} (h : List.Forall₂ R l r) :
    l.length = r.length ∧ ∀ (n : Nat) (a : α), l[n]? = some a → ∃ b, r[n]? = some b ∧ R a b := by
  refine ⟨h.length_eq, fun n a hn => ?_⟩
  obtain ⟨hl, rfl⟩ := List.getElem?_eq_some_iff.1 hn
  have hr : n < r.length := h.length_eq ▸ hl
  exact ⟨r[n], List.getElem?_eq_getElem hr, List.Forall₂.get h hl hr⟩

theorem insertBoxes_eq {C : Cfg} {fuel : Nat} : ∀ (bs : List Box) (s : IndexSet),
    insertBoxes C fuel s bs = runInserts C fuel s (bs.map .box)
  | [], s => rfl
  | b :: bs, s => by
    simp only [insertBoxes, List.map_cons, runInserts, InsertOp.run]
    cases h : insertBox C fuel s b with
    | error e => rfl
    | ok t => exact insertBoxes_eq bs t

theorem inB_iff (b : List (Int × Int)) (p : Point) : InB p (toBox b) ↔ InBoxL b p := by
  unfold InB toBox InBoxL
  rw [List.forall₂_iff_get]
  simp only [List.length_map, List.get_eq_getElem, List.getElem_map, InR]
  constructor
  · rintro ⟨h1, h2⟩
    refine ⟨h1, fun k r i hr hi => ?_⟩
    obtain ⟨hk, rfl⟩ := List.getElem?_eq_some_iff.1 hr
    obtain ⟨hk', rfl⟩ := List.getElem?_eq_some_iff.1 hi
    exact h2 k hk hk'
  · rintro ⟨h1, h2⟩
    exact ⟨h1, fun k hk hk' => h2 k _ _ (List.getElem?_eq_getElem hk) (List.getElem?_eq_getElem hk')⟩

theorem box_ranked {shape : List Nat} {rs : List VRange} (h0 : shape ≠ []) (hl : rs.length = shape.length)
    (h : BoundsOk shape rs) : Ranked shape.length (toBox (List.zipWith printableRange rs shape)) := by
  refine ⟨⟨?_, ?_⟩, by simp [toBox, hl]⟩
  · intro h
    have := congrArg List.length h
    simp [toBox, hl] at this
    exact h0 this
  · intro r hr
    simp only [toBox, List.mem_map] at hr
    obtain ⟨q, hq, rfl⟩ := hr
    obtain ⟨k, hk, rfl⟩ := List.mem_iff_getElem.1 hq
    simp only [List.length_zipWith, lt_min_iff] at hk
    have := h k _ _ (List.getElem?_eq_getElem hk.2) (List.getElem?_eq_getElem hk.1)
    simp only [List.getElem_zipWith, printableRange, kUnbounded, Range.Valid, bne_iff_ne, ne_eq, ite_not]
    split <;> split <;> omega

theorem boundsOk_in {shape : List Nat} {rs : List VRange} (h : BoundsOk shape rs) :
    Props.BoundsIn shape rs := by
  intro k n r hn hr
  have := h k n r hn hr
  omega

/-- The set of the printable elements. -/
theorem printableIndices_spec {fuel : Nat} {shape : List Nat} {infos : List Info} {s : IndexSet}
    (h0 : shape ≠ []) (hr : ∀ i ∈ infos, i.ranges.length = shape.length)
    (hb : ∀ i ∈ infos, i.visible = true → BoundsOk shape i.ranges)
    (h : printableIndices fuel shape infos = .ok s) :
    SetOk shape.length s ∧ DisjL s.ranges ∧
      ∀ p, Has s p ↔ Props.InShape shape p ∧ Shown infos (p.map (· + 1)) := by
  rw [printableIndices, insertBoxes_eq] at h
  have hv : ∀ o ∈ ((printable shape infos).map toBox).map InsertOp.box, o.Valid shape.length := by
    intro o ho
    simp only [List.mem_map, printable, List.mem_filter] at ho
    obtain ⟨_, ⟨_, ⟨i, ⟨hi, hvis⟩, rfl⟩, rfl⟩, rfl⟩ := ho
    exact box_ranked h0 (hr i hi) (hb i hi hvis)
  obtain ⟨h1, h2, h3⟩ := Props.runInserts_spec cfg_anyChoice.sound (cfg_hookOk _) storedOk_empty hv h
  refine ⟨h1.setOk, h3 (by simp [IndexSet.empty, ranges, DisjL]), fun p => ?_⟩
  rw [h2, ← Props.C52_printable_partial shape infos p hr fun i hi hvis => boundsOk_in (hb i hi hvis)]
  constructor
  · rintro (⟨o, ho, hp⟩ | hp)
    · simp only [List.mem_map] at ho
      obtain ⟨_, ⟨b, hb, rfl⟩, rfl⟩ := ho
      exact ⟨b, hb, (inB_iff b p).1 hp⟩
    · exact absurd hp (not_has_empty p)
  · rintro ⟨b, hb, hp⟩
    exact .inl ⟨.box (toBox b), by simp only [List.mem_map]; exact ⟨_, ⟨b, hb, rfl⟩, rfl⟩, (inB_iff b p).2 hp⟩

end Marco.Metadata

namespace Marco.Metadata
open Marco IndexSet RTree VF Spec Spec.Meta

theorem growth_ge : ∀ (n size cap buf : Nat), ∀ b ∈ growth n size cap buf, buf ≤ b
  | 0, _, _, _ => by simp [growth]
  | n + 1, size, cap, buf => by
    intro b hb
    rw [growth] at hb
    split at hb
    · rcases List.mem_cons.1 hb with rfl | hb
      · omega
      · have := growth_ge n _ _ _ b hb
        omega
    · rcases List.mem_cons.1 hb with rfl | hb
      · omega
      · exact growth_ge n _ _ _ b hb

/-- The references survive exactly when the elements fit in the vector from the beginning. -/
theorem alive_iff (n : Nat) : alive n = true ↔ n ≤ 2 := by
  match n with
  | 0 => simp [alive, growth]
  | 1 => simp [alive, growth]
  | 2 => simp [alive, growth]
  | n + 3 =>
    have hg : growth (n + 3) 0 2 0 = 0 :: 0 :: 1 :: growth n 3 5 1 := by
      simp [growth]
    refine ⟨fun h => ?_, fun h => by omega⟩
    unfold alive at h
    rw [hg, List.all_cons, Bool.and_eq_true] at h
    have h0 := h.1
    rw [beq_iff_eq, List.getLastD_cons, List.getLastD_cons, List.getLastD_cons] at h0
    exfalso
    cases hl : growth n 3 5 1 with
    | nil => rw [hl] at h0; simp at h0
    | cons a l =>
      rw [hl] at h0
      have hm : (a :: l).getLastD 1 ∈ growth n 3 5 1 := by
        rw [hl, List.getLastD_eq_getLast?, List.getLast?_eq_some_getLast (List.cons_ne_nil a l)]
        exact List.getLast_mem _
      have := growth_ge n 3 5 1 _ hm
      omega

theorem numbered_front : ∀ {pre : List MVar} {w : MVar} {post : List MVar},
    (∀ u ∈ pre, ¬ Reserved u.name) → ¬ Reserved w.name → Numbered (pre ++ w :: post) pre.length w
  | [], _, _, _, hw => .here hw
  | u :: pre, w, post, h, hw =>
    .next (h u (by simp)) (numbered_front (fun x hx => h x (by simp [hx])) hw)

theorem numbered_mem {l : List MVar} {n : Nat} {v : MVar} (h : Numbered l n v) :
    v ∈ l ∧ ¬ Reserved v.name := by
  induction h with
  | here h => exact ⟨by simp, h⟩
  | skip _ _ ih => exact ⟨List.mem_cons_of_mem _ ih.1, ih.2⟩
  | next _ _ ih => exact ⟨List.mem_cons_of_mem _ ih.1, ih.2⟩

theorem position_spec {m : MModel} {d : Name} {j : Int} (h : position m d = some j) :
    ∃ pre w post, m.vars = pre ++ w :: post ∧ w.name = d ∧ j = (pre.length : Nat) := by
  simp only [position, Option.map_eq_some_iff] at h
  obtain ⟨n, hn, rfl⟩ := h
  obtain ⟨hl, he⟩ : ∃ hl : n < (m.vars.map (·.name)).length, (m.vars.map (·.name))[n] = d := by
    rw [List.idxOf?, List.findIdx?_eq_some_iff_getElem] at hn
    obtain ⟨hl, he, _⟩ := hn
    exact ⟨hl, by simpa using he⟩
  have hl' : n < m.vars.length := by simpa using hl
  refine ⟨m.vars.take n, m.vars[n], m.vars.drop (n + 1), ?_, by simpa using he, ?_⟩
  · rw [List.cons_getElem_drop_succ, List.take_append_drop]
  · simp only [List.length_take, min_eq_left hl'.le]; rfl

theorem position_isSome {m : MModel} {w : MVar} (h : w ∈ m.vars) : ∃ j, position m w.name = some j := by
  simp only [position]
  cases hi : (m.vars.map (·.name)).idxOf? w.name with
  | some n => exact ⟨_, rfl⟩
  | none =>
    rw [List.idxOf?_eq_none_iff] at hi
    exact absurd (List.mem_map.2 ⟨w, h, rfl⟩) hi

/-- The ranges of an array variable, as the program lists them. -/
theorem listed_iff {entries : List (Nat × List Box)} {n : Nat} {rs : List Box} {r : Nat}
    (hmem : (n, rs) ∈ entries) (huniq : ∀ e ∈ entries, e.1 = n → e.2 = rs) (hne : rs ≠ [])
    (hrank : ∀ b ∈ rs, b.length = r) (k : Int) (p : Point) (hp : p.length = r) :
    (0 ≤ k ∧ k < numRanges entries n ∧ ∀ (d : Nat) (x : Int), p[d]? = some x →
      boundary (·.b) entries n k d ≤ x ∧ x < boundary (·.e) entries n k d) ↔
    ∃ (j : Nat) (b : Box), k = j ∧ rs[j]? = some b ∧ InB p b := by
  have hnum : numRanges entries n = rs.length := by
    refine switch_eq ⟨((n : Int), (rs.length : Int)), ?_, rfl⟩ ?_
    · refine List.mem_map.2 ⟨(n, rs), List.mem_filter.2 ⟨hmem, by simpa using hne⟩, rfl⟩
    · intro c hc hx
      obtain ⟨e, he, rfl⟩ := List.mem_map.1 hc
      have : e.1 = n := by simpa using hx
      rw [huniq e (List.mem_filter.1 he).1 this]
  have hbd : ∀ (get : Range → Int) (j d : Nat) (b : Box) (q : Range), rs[j]? = some b → b[d]? = some q →
      boundary get entries n j d = get q := by
    intro get j d b q hb hq
    have h1 : boxBlock get b d = get q := switch_enum (by rw [List.getElem?_map, hq]; rfl)
    have h2 : variableBlock get rs j d = get q := by
      rw [← h1]; exact switch_enum (by rw [List.getElem?_map, hb]; rfl)
    refine switch_eq ⟨((n : Int), variableBlock get rs j d), List.mem_map.2 ⟨(n, rs), hmem, rfl⟩, rfl⟩ ?_
    intro c hc hx
    obtain ⟨e, he, rfl⟩ := List.mem_map.1 hc
    have : e.1 = n := by simpa using hx
    rw [huniq e he this, h2]
  rw [hnum]
  constructor
  · rintro ⟨h0, h1, h2⟩
    obtain ⟨j, rfl⟩ := Int.eq_ofNat_of_zero_le h0
    have hj : j < rs.length := by omega
    refine ⟨j, rs[j], rfl, List.getElem?_eq_getElem hj, ?_⟩
    have hb := hrank rs[j] (List.getElem_mem hj)
    unfold InB
    rw [List.forall₂_iff_get]
    refine ⟨by rw [hb, hp], fun d hd hd' => ?_⟩
    have := h2 d _ (List.getElem?_eq_getElem hd')
    rw [hbd _ j d _ _ (List.getElem?_eq_getElem hj) (List.getElem?_eq_getElem hd),
      hbd _ j d _ _ (List.getElem?_eq_getElem hj) (List.getElem?_eq_getElem hd)] at this
    exact this
  · rintro ⟨j, b, rfl, hb, hin⟩
    have hj := (List.getElem?_eq_some_iff.1 hb).1
    refine ⟨by omega, by omega, fun d x hx => ?_⟩
    unfold InB at hin
    rw [List.forall₂_iff_get] at hin
    obtain ⟨hd', rfl⟩ := List.getElem?_eq_some_iff.1 hx
    have hd : d < b.length := by rw [hin.1]; exact hd'
    rw [hbd _ j d _ _ hb (List.getElem?_eq_getElem hd), hbd _ j d _ _ hb (List.getElem?_eq_getElem hd)]
    exact hin.2 d hd hd'

/-- The answer of the filter. -/
theorem filters_rank (match_ : Name → Name → Bool) (f : Filter) (m : MModel) (v : MVar) :
    ∀ i ∈ filters match_ f m v, i.ranges.length = v.shape.length := by
  unfold filters
  cases m.state v.name with
  | none => exact (Props.C41_rank match_ f _ _).1
  | some s => exact (Props.C41_rank match_ f _ _).2

theorem filters_bounds {match_ : Name → Name → Bool} {f : Filter} {m : MModel} (h : Proper match_ f m)
    {v : MVar} (hv : v ∈ m.vars) :
    ∀ i ∈ filters match_ f m v, i.visible = true → BoundsOk v.shape i.ranges := by
  unfold filters
  cases m.state v.name with
  | none => exact h.bounds v hv
  | some s =>
    intro i hi _ k n r hn hr
    simp only [Filter.getVariableDerInfo, List.mem_singleton] at hi
    subst hi
    obtain ⟨_, rfl⟩ := List.getElem?_eq_some_iff.1 hr
    simp only [List.getElem_replicate, kUnbounded]
    exact ⟨h.sizes v hv n (List.mem_of_getElem? hn), .inl trivial, .inl trivial, .inl trivial⟩

theorem asked_iff (match_ : Name → Name → Bool) (f : Filter) (m : MModel) (v : MVar) (p : List Int) :
    Asked match_ f m v p ↔ Props.InShape v.shape p ∧ Shown (filters match_ f m v) (p.map (· + 1)) := by
  unfold Asked Props.InShape filters
  cases m.state v.name with
  | none => simp [eq_comm, and_assoc]
  | some s => simp [eq_comm, and_assoc]

end Marco.Metadata
