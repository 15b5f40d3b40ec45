import Verif.Spec.Serialization
import Verif.Props.C07_History
import Verif.Props.C14_Equality
import Mathlib.Data.List.Forall2

/-!
# Helper lemmas for C105: writing and reading back
-/

namespace Marco.Serial
open Marco Spec RTree IndexSet Props Marco.Spec.Serial

/-- Adding boxes one after the other. -/
def addBoxes (fuel : Nat) : IndexSet → List Box → Out IndexSet
  | s, [] => .ok s
  | s, b :: bs => do
    let s ← addBox fuel s b
    addBoxes fuel s bs

theorem addBox_cases (fuel : Nat) (s : IndexSet) (b : Box) :
    (∃ s', addBox fuel s b = .ok s') ∨ addBox fuel s b = .error .undefined := by
  unfold addBox
  split_ifs
  · exact .inr rfl
  · split
    · exact .inl ⟨_, rfl⟩
    · exact .inr rfl

theorem addBoxes_cases {fuel : Nat} : ∀ (bs : List Box) (s : IndexSet),
    (∃ s', addBoxes fuel s bs = .ok s') ∨ addBoxes fuel s bs = .error .undefined
  | [], s => .inl ⟨s, rfl⟩
  | b :: bs, s => by
    rcases addBox_cases fuel s b with ⟨s', h⟩ | h
    · rw [addBoxes, h]
      exact addBoxes_cases bs s'
    · right
      rw [addBoxes, h]
      rfl

theorem hookOk (k : Nat) : cfg.HookOk k := by
  refine ⟨?_, ?_⟩
  · exact fun _ hl => (insertionHook_spec hl).1
  · exact insertionHook_single

theorem addBox_spec {fuel k : Nat} {s s' : IndexSet} (hs : StoredOk k s) {b : Box} (hb : Ranked k b)
    (h : addBox fuel s b = .ok s') : StoredOk k s' ∧ ∀ p, Has s' p ↔ InB p b ∨ Has s p := by
  unfold addBox at h
  split_ifs at h
  split at h
  · rename_i s1 h1
    cases h
    obtain ⟨h2, h3, -⟩ := insertBox_spec cfg_anyChoice.sound (hookOk k) hs hb h1
    exact ⟨h2, h3⟩
  · cases h

theorem addBoxes_spec {fuel k : Nat} : ∀ (bs : List Box) {s s' : IndexSet}, StoredOk k s → (∀ b ∈ bs, Ranked k b) →
    addBoxes fuel s bs = .ok s' → StoredOk k s' ∧ ∀ p, Has s' p ↔ InL p bs ∨ Has s p
  | [], s, s', hs, _, h => by
    cases h
    exact ⟨hs, fun p => by simp [InL]⟩
  | b :: bs, s, s', hs, hb, h => by
    rw [addBoxes] at h
    rcases addBox_cases fuel s b with ⟨s1, h1⟩ | h1
    · rw [h1] at h
      obtain ⟨a1, a2⟩ := addBox_spec hs (hb b (by simp)) h1
      obtain ⟨b1, b2⟩ := addBoxes_spec bs a1 (fun c hc => hb c (by simp [hc])) h
      refine ⟨b1, fun p => ?_⟩
      rw [b2, a2]
      simp only [InL, List.mem_cons, exists_eq_or_imp]
      rw [or_assoc, or_left_comm]
    · rw [h1] at h
      cases h

/-- Boxes that cannot be merged are added without undefined behaviour. -/
theorem addBoxes_apart {fuel k : Nat} : ∀ (bs : List Box) {s : IndexSet}, Balanced k s → (∀ b ∈ bs, Ranked k b) →
    (bs ++ s.ranges).Pairwise Apart → ∃ s', addBoxes fuel s bs = .ok s'
  | [], s, _, _, _ => ⟨s, rfl⟩
  | b :: bs, s, hs, hb, h => by
    have h1 : (b :: s.ranges).Pairwise Apart := h.sublist (by simp)
    obtain ⟨s1, e1, e2, e3⟩ := insert_apart (fuel := fuel) hs (hb b (by simp)) h1
    have hp : (bs ++ s1.ranges).Perm (b :: bs ++ s.ranges) := (e3.append_left bs).trans List.perm_middle
    obtain ⟨s2, h2⟩ := addBoxes_apart bs e2 (fun c hc => hb c (by simp [hc]))
      ((hp.pairwise_iff (fun h => apart_symm h)).2 h)
    refine ⟨s2, ?_⟩
    rw [addBoxes]
    have : addBox fuel s b = .ok s1 := by
      unfold addBox
      rw [if_neg, e1]
      simp only [Bool.not_eq_true, List.any_eq_false, bne_iff_ne, ne_eq, not_not]
      intro r hr
      rw [(ranges_ranked hs.stored.setOk r hr).2, (hb b (by simp)).2]
    rw [this]
    exact h2

/-! ### One index set -/

theorem regular_ranked {k : Nat} {s : IndexSet} (hs : SetOk k s) : ∀ b ∈ s.compactRanges, Ranked k b :=
  (compactRanges_spec hs).ranked

theorem has_of_compact {k : Nat} {s : IndexSet} (hs : SetOk k s) (p : Point) : InL p s.compactRanges ↔ Has s p :=
  (compactRanges_spec hs).mem p

theorem isEmpty_ranges {s : IndexSet} (h : s.isEmpty = true) : s.ranges = [] := by
  unfold IndexSet.isEmpty at h
  unfold IndexSet.ranges
  rw [Option.isNone_iff_eq_none.1 h]

theorem compact_empty {s : IndexSet} (h : s.isEmpty = true) : s.compactRanges = [] := by
  have hr : s.ranges = [] := isEmpty_ranges h
  unfold IndexSet.compactRanges
  rw [hr]
  rfl

theorem empty_of_compact {k : Nat} {s : IndexSet} (hs : SetOk k s) (h : s.compactRanges = []) : s.isEmpty = true := by
  have : s.ranges = [] := by
    cases hr : s.ranges with
    | nil => rfl
    | cons b bs =>
      exfalso
      obtain ⟨p, hp⟩ := ranked_exists (ranges_ranked hs b (by rw [hr]; simp))
      have := (has_of_compact hs p).2 ⟨b, by rw [hr]; simp, hp⟩
      rw [h] at this
      simp [InL] at this
  rw [ranges_eq_nil_iff hs] at this
  simp [IndexSet.isEmpty, this]

/-- A set as left by moving, or new: no points, and if it has a rank it is the given one. -/
def Left (k : Nat) (s : IndexSet) : Prop := s.root = none ∧ (s.init = true → s.rank = k)

theorem Left.stored {k : Nat} {s : IndexSet} (h : Left k s) : StoredOk k s := storedOk_none h.1 h.2

theorem Left.balanced {k : Nat} {s : IndexSet} (h : Left k s) : Balanced k s :=
  ⟨h.2, fun t ht => by rw [h.1] at ht; cases ht⟩

theorem left_empty (k : Nat) : Left k IndexSet.empty := ⟨rfl, by simp [IndexSet.empty]⟩

theorem Left.not_has {k : Nat} {s : IndexSet} (h : Left k s) (p : Point) : ¬ Has s p := by
  unfold Has IndexSet.ranges
  rw [h.1]
  simp [InL]

/-- The ranges of a set added to a set without points. -/
theorem load {fuel k : Nat} {cur s : IndexSet} (hc : Left k cur) (hs : SetOk k s)
    (he : s.isEmpty = true → cur.rank = s.rank) :
    (∃ s', addBoxes fuel cur s.compactRanges = .ok s' ∧ Spec.Serial.SameSet s' s ∧ StoredOk k s') ∨
      (Mergeable s ∧ addBoxes fuel cur s.compactRanges = .error .undefined) := by
  have hr := regular_ranked hs
  rcases addBoxes_cases (fuel := fuel) s.compactRanges cur with ⟨s', h⟩ | h
  · left
    refine ⟨s', h, ?_⟩
    obtain ⟨h1, h2⟩ := addBoxes_spec _ hc.stored hr h
    refine ⟨?_, h1⟩
    have hm : ∀ p, Has s' p ↔ Has s p := fun p => by
      rw [h2, has_of_compact hs]
      simp [hc.not_has p]
    unfold Spec.Serial.SameSet
    cases hemp : s.isEmpty with
    | true =>
      rw [compact_empty hemp] at h
      cases h
      exact (C14_eq_partial k cur s h1.setOk hs (he hemp)).2 hm
    | false =>
      refine (C14_eq_nonempty k s' s h1.setOk hs ?_ hemp).2 hm
      by_contra hc'
      rw [Bool.not_eq_false] at hc'
      have : s.ranges ≠ [] := by
        rw [ne_eq, ranges_eq_nil_iff hs]
        intro h0
        simp [IndexSet.isEmpty, h0] at hemp
      cases hrs : s.ranges with
      | nil => exact this hrs
      | cons b bs =>
        obtain ⟨p, hp⟩ := ranked_exists (ranges_ranked hs b (by rw [hrs]; simp))
        have := (hm p).2 ⟨b, by rw [hrs]; simp, hp⟩
        unfold Has at this
        rw [isEmpty_ranges hc'] at this
        simp [InL] at this
  · refine .inr ⟨fun hp => ?_, h⟩
    obtain ⟨s', h'⟩ := addBoxes_apart (fuel := fuel) s.compactRanges hc.balanced hr
      (by simpa [IndexSet.ranges, hc.1] using hp)
    rw [h] at h'
    cases h'

/-! ### The text of an index set -/

theorem parseDims_print (rest : List Tok) (hr : ∀ ts, rest ≠ .lsq :: ts) : ∀ (b : Box) (r : Range),
    parseDims (.int r.b :: .comma :: .int (r.e - 1) :: .rsq :: (printBox b ++ rest)) = some (r :: b, rest)
  | [], r => by
    simp only [printBox, List.flatMap_nil, List.nil_append]
    unfold parseDims
    split
    · rename_i h
      simp only [List.cons.injEq] at h
      exact absurd h.2.2.2.2 (hr _)
    · rename_i h
      simp only [List.cons.injEq, Tok.int.injEq, true_and] at h
      obtain ⟨h1, h2, h3⟩ := h
      subst h1 h2 h3
      simp
    · rename_i h
      exact absurd rfl (h _ _ _)
  | r' :: b, r => by
    have := parseDims_print rest hr b r'
    simp only [printBox, List.flatMap_cons, List.cons_append, List.nil_append] at this ⊢
    rw [parseDims, this]
    simp

theorem ranked_ne {k : Nat} (hk : 0 < k) {b : Box} (hb : Ranked k b) : b ≠ [] := by
  rintro rfl
  have := hb.2
  simp at this
  omega

theorem ranked_valid {k : Nat} {b : Box} (hb : Ranked k b) : (b.all fun r => decide (r.b < r.e)) = true := by
  rw [List.all_eq_true]
  intro r hr
  simpa [Range.Valid] using hb.1.2 r hr

theorem parseBoxes_print {fuel k : Nat} (hk : 0 < k) (rest : List Tok) (h1 : ∀ ts, rest ≠ .lsq :: ts)
    (h2 : ∀ ts, rest ≠ .comma :: ts) : ∀ (bs : List Box) (n : Nat) (s : IndexSet), bs ≠ [] → bs.length ≤ n →
    (∀ b ∈ bs, Ranked k b) →
    parseBoxes fuel n s (commas (bs.map printBox) ++ rest) = (addBoxes fuel s bs).map fun s => (s, rest)
  | [], _, _, h, _, _ => absurd rfl h
  | [b], n, s, _, hn, hb => by
    obtain ⟨n, rfl⟩ : ∃ m, n = m + 1 := ⟨n - 1, by simp at hn; omega⟩
    have hb' := hb b (by simp)
    obtain ⟨r, b', rfl⟩ : ∃ r b', b = r :: b' := by
      cases b with
      | nil => exact absurd rfl (ranked_ne hk hb')
      | cons r b' => exact ⟨r, b', rfl⟩
    have hd := parseDims_print rest h1 b' r
    simp only [commas, List.map_cons, List.map_nil, printBox, List.flatMap_cons, List.cons_append, List.nil_append] at hd ⊢
    rw [parseBoxes, hd]
    simp only
    rw [if_pos (ranked_valid hb'), addBoxes]
    rcases addBox_cases fuel s (r :: b') with ⟨s', h⟩ | h
    · rw [h]
      simp only [bind, Except.bind, addBoxes, Except.map]
    · rw [h]
      rfl
  | b :: c :: bs, n, s, _, hn, hb => by
    obtain ⟨n, rfl⟩ : ∃ m, n = m + 1 := ⟨n - 1, by simp at hn; omega⟩
    have hb' := hb b (by simp)
    obtain ⟨r, b', rfl⟩ : ∃ r b', b = r :: b' := by
      cases b with
      | nil => exact absurd rfl (ranked_ne hk hb')
      | cons r b' => exact ⟨r, b', rfl⟩
    have hd := parseDims_print (.comma :: (commas ((c :: bs).map printBox) ++ rest)) (by simp) b' r
    have hn' : (c :: bs).length ≤ n := by simpa using hn
    have hb2 : ∀ b ∈ c :: bs, Ranked k b := fun b hb'' => hb b (List.mem_cons_of_mem _ hb'')
    have ih : ∀ s', parseBoxes fuel n s' (commas ((c :: bs).map printBox) ++ rest)
        = (addBoxes fuel s' (c :: bs)).map fun s => (s, rest) :=
      fun s' => parseBoxes_print hk rest h1 h2 (c :: bs) n s' (by simp) hn' hb2
    have e : commas (((r :: b') :: c :: bs).map printBox) ++ rest
        = .lsq :: .int r.b :: .comma :: .int (r.e - 1) :: .rsq :: (printBox b' ++
          (.comma :: (commas ((c :: bs).map printBox) ++ rest))) := by
      simp [commas, printBox]
    rw [e, parseBoxes, hd]
    simp only
    rw [if_pos (ranked_valid hb'), addBoxes]
    rcases addBox_cases fuel s (r :: b') with ⟨s', h⟩ | h
    · rw [h]
      simp only [bind, Except.bind]
      exact ih s'
    · rw [h]
      rfl

theorem commas_length {l : List (List Tok)} (h : ∀ t ∈ l, t ≠ []) : l.length ≤ (commas l).length := by
  induction l with
  | nil => simp
  | cons t l ih =>
    have ht : 0 < t.length := List.length_pos_iff.2 (h t (by simp))
    have ih := ih fun u hu => h u (by simp [hu])
    cases l with
    | nil => simp only [commas, List.length_cons, List.length_nil]; omega
    | cons u l => simp only [commas, List.length_append, List.length_cons] at ih ⊢; omega

theorem printBox_ne {b : Box} (h : b ≠ []) : printBox b ≠ [] := by
  cases b with
  | nil => exact absurd rfl h
  | cons r b => simp [printBox]

theorem parseSet_print {fuel k : Nat} (hk : 0 < k) {t : IndexSet} (ht : SetOk k t) (cur : IndexSet) (rest : List Tok) :
    parseSet fuel cur (printSet t ++ rest) = (addBoxes fuel cur t.compactRanges).map fun s => (s, rest) := by
  have hr := regular_ranked ht
  cases hc : t.compactRanges with
  | nil =>
    simp [printSet, hc, commas, parseSet, addBoxes, Except.map]
  | cons b bs =>
    rw [hc] at hr
    have hb := hr b (by simp)
    have e : printSet t ++ rest = .lbrace :: (commas ((b :: bs).map printBox) ++ .rbrace :: rest) := by
      simp [printSet, hc]
    rw [e]
    have hp := parseBoxes_print (fuel := fuel) hk (.rbrace :: rest) (by simp) (by simp) (b :: bs)
      (commas ((b :: bs).map printBox) ++ .rbrace :: rest).length cur (by simp) (by
        have := commas_length (l := (b :: bs).map printBox) (by
          intro u hu
          obtain ⟨c, hc', rfl⟩ := List.mem_map.1 hu
          exact printBox_ne (ranked_ne hk (hr c hc')))
        rw [List.length_map] at this
        rw [List.length_append]
        omega) hr
    rw [parseSet]
    · rw [hp]
      rcases addBoxes_cases (fuel := fuel) (b :: bs) cur with ⟨s', h⟩ | h
      · rw [h]
        rfl
      · rw [h]
        rfl
    · intro ts h
      obtain ⟨r, b', rfl⟩ : ∃ r b', b = r :: b' := by
        cases b with
        | nil => exact absurd rfl (ranked_ne hk hb)
        | cons r b' => exact ⟨r, b', rfl⟩
      cases bs <;> simp [commas, printBox] at h

/-- Writing an index set as a text and reading it into a set without points. -/
theorem text_set {fuel k : Nat} (hk : 0 < k) {cur s : IndexSet} (hc : Left k cur) (hs : SetOk k s)
    (he : s.isEmpty = true → cur.rank = s.rank) (rest : List Tok) :
    Reads (Mergeable s) (parseSet fuel cur (printSet s ++ rest)) (fun s' => Spec.Serial.SameSet s' s ∧ StoredOk k s') rest := by
  rw [parseSet_print hk hs]
  rcases load (fuel := fuel) hc hs he with ⟨s', h1, h2, h3⟩ | ⟨h1, h2⟩
  · exact .inl ⟨s', by rw [h1]; rfl, h2, h3⟩
  · exact .inr ⟨h1, by rw [h2]; rfl⟩

/-! ### Attributes and bytecode of an index set -/

theorem addAttrs_boxes {fuel : Nat} : ∀ (bs : List Box) (s : IndexSet), addAttrs fuel s (bs.map .box) = addBoxes fuel s bs
  | [], s => rfl
  | b :: bs, s => by
    simp only [List.map_cons, addAttrs, addBoxes]
    rcases addBox_cases fuel s b with ⟨s', h⟩ | h
    · rw [h]
      exact addAttrs_boxes bs s'
    · rw [h]
      rfl

theorem attr_set {fuel k : Nat} {cur s : IndexSet} (hc : Left k cur) (hs : SetOk k s)
    (he : s.isEmpty = true → cur.rank = s.rank) :
    Gives (Mergeable s) (setOfAttr fuel cur (attrOfSet s)) (fun s' => Spec.Serial.SameSet s' s) := by
  rw [attrOfSet, setOfAttr, addAttrs_boxes]
  rcases load (fuel := fuel) hc hs he with ⟨s', h1, h2, h3⟩ | ⟨h1, h2⟩
  · exact .inl ⟨s', h1, h2⟩
  · exact .inr ⟨h1, h2⟩

theorem readDims_write : ∀ (b : Box) (rest : List Item),
    readDims b.length ((b.flatMap fun r => [.int r.b, .int r.e]) ++ rest) = .ok (b, rest)
  | [], rest => rfl
  | r :: b, rest => by
    simp only [List.flatMap_cons, List.cons_append, List.nil_append, List.length_cons, readDims, readDims_write b rest]
    rfl

theorem readBoxes_write {fuel k : Nat} (rest : List Item) : ∀ (bs : List Box) (s : IndexSet), (∀ b ∈ bs, Ranked k b) →
    readBoxes fuel k bs.length s ((bs.map fun b => b.flatMap fun r => [Item.int r.b, Item.int r.e]).flatten ++ rest)
      = (addBoxes fuel s bs).map fun s => (s, rest)
  | [], s, _ => rfl
  | b :: bs, s, hb => by
    have hb' := hb b (by simp)
    have hd := readDims_write b ((bs.map fun b => b.flatMap fun r => [Item.int r.b, Item.int r.e]).flatten ++ rest)
    rw [hb'.2] at hd
    simp only [List.map_cons, List.flatten_cons, List.append_assoc, List.length_cons, readBoxes]
    rw [hd]
    simp only [bind, Except.bind]
    rw [if_pos (ranked_valid hb'), addBoxes]
    rcases addBox_cases fuel s b with ⟨s', h⟩ | h
    · rw [h]
      simp only [bind, Except.bind]
      exact readBoxes_write rest bs s' fun c hc => hb c (by simp [hc])
    · rw [h]
      rfl

theorem mapM_ok {α β : Type} {f : α → Out β} {g : α → β} : ∀ {l : List α}, (∀ a ∈ l, f a = .ok (g a)) →
    l.mapM f = .ok (l.map g)
  | [], _ => rfl
  | a :: l, h => by
    rw [List.mapM_cons, h a (by simp), mapM_ok fun b hb => h b (by simp [hb])]
    rfl

theorem bytecode_set {fuel k : Nat} {cur s : IndexSet} (hc : Left k cur) (hs : SetOk k s)
    (he : s.isEmpty = true → cur.rank = s.rank) : ∃ w, writeSet s = .ok w ∧ ∀ rest,
      Reads (Mergeable s) (readSet fuel cur (w ++ rest)) (fun s' => Spec.Serial.SameSet s' s) rest := by
  have hr := regular_ranked hs
  have hrank : s.compactRanges ≠ [] → s.rank = k := fun h => by
    refine hs.rank ?_
    cases hro : s.root with
    | some _ => rfl
    | none => exact absurd (compact_empty (by simp [IndexSet.isEmpty, hro])) h
  have hw : writeSet s = .ok (.nat s.rank :: .nat s.compactRanges.length ::
      (s.compactRanges.map fun b => b.flatMap fun r => [Item.int r.b, Item.int r.e]).flatten) := by
    unfold writeSet
    rw [mapM_ok (g := fun b => b.flatMap fun r => [Item.int r.b, Item.int r.e])]
    · rfl
    · intro b hb
      have h1 := hrank (List.ne_nil_of_mem hb)
      have h2 := (hr b hb).2
      unfold writeBox
      rw [if_neg (by omega), List.take_of_length_le (by omega)]
  refine ⟨_, hw, fun rest => ?_⟩
  have : readSet fuel cur ((.nat s.rank :: .nat s.compactRanges.length ::
      (s.compactRanges.map fun b => b.flatMap fun r => [Item.int r.b, Item.int r.e]).flatten) ++ rest) =
      (addBoxes fuel cur s.compactRanges).map fun s => (s, rest) := by
    simp only [List.cons_append, readSet]
    by_cases hcr : s.compactRanges = []
    · rw [hcr]
      rfl
    · rw [hrank hcr, readBoxes_write rest _ _ hr]
  rw [this]
  rcases load (fuel := fuel) hc hs he with ⟨s', h1, h2, h3⟩ | ⟨h1, h2⟩
  · exact .inl ⟨s', by rw [h1]; rfl, h2⟩
  · exact .inr ⟨h1, by rw [h2]; rfl⟩

/-! ### Lists -/

/-- Reading the elements of a list, if each of them is read. `P` holds of the variable of the loop and of the elements left. -/
theorem parseLoop_print {α σ : Type} {item : σ → List Tok → Out ((α × σ) × List Tok)} {pr : α → List Tok} {R : α → α → Prop}
    {U : α → Prop} {P : σ → List α → Prop}
    (step : ∀ st a l rest, P st (a :: l) →
      (∃ a' st', item st (pr a ++ rest) = .ok ((a', st'), rest) ∧ R a' a ∧ P st' l) ∨
        (U a ∧ item st (pr a ++ rest) = .error .undefined))
    (rest : List Tok) (h2 : ∀ ts, rest ≠ .comma :: ts) : ∀ (l : List α) (n : Nat) (st : σ), l ≠ [] → l.length ≤ n → P st l →
    Reads (∃ a ∈ l, U a) (parseLoop item n st (commas (l.map pr) ++ rest)) (fun l' => List.Forall₂ R l' l) rest
  | [], _, _, h, _, _ => absurd rfl h
  | [a], n, st, _, hn, hp => by
    obtain ⟨n, rfl⟩ : ∃ m, n = m + 1 := ⟨n - 1, by simp at hn; omega⟩
    rcases step st a [] rest hp with ⟨a', st', h, hR, -⟩ | ⟨hu, h⟩
    · refine .inl ⟨[a'], ?_, .cons hR .nil⟩
      simp only [List.map_cons, List.map_nil, commas]
      rw [parseLoop, h]
      simp only [bind, Except.bind]
    · refine .inr ⟨⟨a, by simp, hu⟩, ?_⟩
      simp only [List.map_cons, List.map_nil, commas]
      rw [parseLoop, h]
      rfl
  | a :: b :: l, n, st, _, hn, hp => by
    obtain ⟨n, rfl⟩ : ∃ m, n = m + 1 := ⟨n - 1, by simp at hn; omega⟩
    have hn' : (b :: l).length ≤ n := by simpa using hn
    have e : commas ((a :: b :: l).map pr) ++ rest = pr a ++ (.comma :: (commas ((b :: l).map pr) ++ rest)) := by
      simp [commas]
    rw [e]
    rcases step st a (b :: l) (.comma :: (commas ((b :: l).map pr) ++ rest)) hp with ⟨a', st', h, hR, hp'⟩ | ⟨hu, h⟩
    · rcases parseLoop_print step rest h2 (b :: l) n st' (by simp) hn' hp' with ⟨l', i1, i2⟩ | ⟨⟨c, hc, hu⟩, i⟩
      · refine .inl ⟨a' :: l', ?_, .cons hR i2⟩
        rw [parseLoop, h]
        simp only [bind, Except.bind]
        rw [i1]
      · refine .inr ⟨⟨c, List.mem_cons_of_mem _ hc, hu⟩, ?_⟩
        rw [parseLoop, h]
        simp only [bind, Except.bind]
        rw [i]
    · refine .inr ⟨⟨a, by simp, hu⟩, ?_⟩
      rw [parseLoop, h]
      rfl

theorem parseList_print {α σ : Type} {item : σ → List Tok → Out ((α × σ) × List Tok)} {pr : α → List Tok} {R : α → α → Prop}
    {U : α → Prop} {P : σ → List α → Prop} (hne : ∀ a, ∃ t ts, pr a = t :: ts ∧ t ≠ .rsq)
    (step : ∀ st a l rest, P st (a :: l) →
      (∃ a' st', item st (pr a ++ rest) = .ok ((a', st'), rest) ∧ R a' a ∧ P st' l) ∨
        (U a ∧ item st (pr a ++ rest) = .error .undefined))
    (rest : List Tok) {l : List α} {st : σ} (hp : P st l) :
    Reads (∃ a ∈ l, U a) (parseList item st (printList pr l ++ rest)) (fun l' => List.Forall₂ R l' l) rest := by
  cases l with
  | nil => exact .inl ⟨[], rfl, .nil⟩
  | cons a l =>
    have hlen : (a :: l).length ≤ (commas ((a :: l).map pr) ++ (.rsq :: rest)).length := by
      have := commas_length (l := (a :: l).map pr) (by
        intro u hu
        obtain ⟨c, -, rfl⟩ := List.mem_map.1 hu
        obtain ⟨t, ts, h, -⟩ := hne c
        rw [h]
        simp)
      rw [List.length_map] at this
      rw [List.length_append]
      omega
    have key := parseLoop_print step (.rsq :: rest) (by simp) (a :: l) _ st (by simp) hlen hp
    have e : printList pr (a :: l) ++ rest = .lsq :: (commas ((a :: l).map pr) ++ (.rsq :: rest)) := by
      simp [printList]
    obtain ⟨t, ts, ht, htne⟩ := hne a
    have hh : ∀ us, commas ((a :: l).map pr) ++ (.rsq :: rest) ≠ .rsq :: us := by
      intro us h
      cases l with
      | nil =>
        simp only [List.map_cons, List.map_nil, commas, ht, List.cons_append, List.cons.injEq] at h
        exact htne h.1
      | cons b l =>
        simp only [List.map_cons, commas, ht, List.cons_append, List.cons.injEq] at h
        exact htne h.1
    rw [e]
    generalize commas ((a :: l).map pr) ++ (Tok.rsq :: rest) = us at key hh
    rw [parseList.eq_2 _ _ _ (fun ts h => hh ts h)]
    rcases key with ⟨l', i1, i2⟩ | ⟨hu, i⟩
    · exact .inl ⟨l', by rw [i1]; rfl, i2⟩
    · exact .inr ⟨hu, by rw [i]; rfl⟩

theorem mapM_gives {α β : Type} {f : α → Out β} {U : α → Prop} {R : β → α → Prop} : ∀ {l : List α},
    (∀ a ∈ l, Gives (U a) (f a) (fun b => R b a)) →
    Gives (∃ a ∈ l, U a) (l.mapM f) (fun l' => List.Forall₂ R l' l)
  | [], _ => .inl ⟨[], rfl, .nil⟩
  | a :: l, h => by
    rcases h a (by simp) with ⟨b, h1, h2⟩ | ⟨hu, h1⟩
    · rcases mapM_gives (fun b hb => h b (List.mem_cons_of_mem a hb)) with ⟨l', i1, i2⟩ | ⟨⟨c, hc, hu⟩, i⟩
      · refine .inl ⟨b :: l', ?_, .cons h2 i2⟩
        rw [List.mapM_cons, h1, i1]
        rfl
      · refine .inr ⟨⟨c, List.mem_cons_of_mem _ hc, hu⟩, ?_⟩
        rw [List.mapM_cons, h1, i]
        rfl
    · refine .inr ⟨⟨a, by simp, hu⟩, ?_⟩
      rw [List.mapM_cons, h1]
      rfl

theorem mapM_map {α β γ : Type} (f : β → Out γ) (g : α → β) (l : List α) : (l.map g).mapM f = l.mapM fun a => f (g a) := by
  induction l with
  | nil => rfl
  | cons a l ih => rw [List.map_cons, List.mapM_cons, List.mapM_cons, ih]

theorem attr_list {α : Type} {wr : α → Attr} {rd : Attr → Out α} {U : α → Prop} {R : α → α → Prop} {l : List α}
    (h : ∀ a ∈ l, Gives (U a) (rd (wr a)) (fun b => R b a)) :
    Gives (∃ a ∈ l, U a) (listOfAttr rd (attrOfList wr l)) (fun l' => List.Forall₂ R l' l) := by
  rw [attrOfList, listOfAttr, mapM_map]
  exact mapM_gives h

theorem readLoop_write {α : Type} {wr : α → Out (List Item)} {rd : List Item → Out (α × List Item)} {U : α → Prop}
    {R : α → α → Prop} : ∀ {l : List α},
    (∀ a ∈ l, ∃ w, wr a = .ok w ∧ ∀ rest, Reads (U a) (rd (w ++ rest)) (fun b => R b a) rest) →
    ∃ ws, l.mapM wr = .ok ws ∧ ∀ rest,
      Reads (∃ a ∈ l, U a) (readLoop rd l.length (ws.flatten ++ rest)) (fun l' => List.Forall₂ R l' l) rest
  | [], _ => ⟨[], rfl, fun rest => .inl ⟨[], rfl, .nil⟩⟩
  | a :: l, h => by
    obtain ⟨w, h1, h2⟩ := h a (by simp)
    obtain ⟨ws, i1, i2⟩ := readLoop_write (fun b hb => h b (List.mem_cons_of_mem a hb))
    refine ⟨w :: ws, by rw [List.mapM_cons, h1, i1]; rfl, fun rest => ?_⟩
    have e : (w :: ws).flatten ++ rest = w ++ (ws.flatten ++ rest) := by simp
    rw [e, List.length_cons, readLoop]
    rcases h2 (ws.flatten ++ rest) with ⟨b, j1, j2⟩ | ⟨hu, j⟩
    · rcases i2 rest with ⟨l', k1, k2⟩ | ⟨⟨c, hc, hu⟩, k⟩
      · exact .inl ⟨b :: l', by rw [j1]; simp only [bind, Except.bind]; rw [k1], .cons j2 k2⟩
      · exact .inr ⟨⟨c, List.mem_cons_of_mem _ hc, hu⟩, by rw [j1]; simp only [bind, Except.bind]; rw [k]⟩
    · exact .inr ⟨⟨a, by simp, hu⟩, by rw [j]; rfl⟩

theorem bytecode_list {α : Type} {wr : α → Out (List Item)} {rd : List Item → Out (α × List Item)} {U : α → Prop}
    {R : α → α → Prop} {l : List α}
    (h : ∀ a ∈ l, ∃ w, wr a = .ok w ∧ ∀ rest, Reads (U a) (rd (w ++ rest)) (fun b => R b a) rest) :
    ∃ w, writeList wr l = .ok w ∧ ∀ rest,
      Reads (∃ a ∈ l, U a) (readList rd (w ++ rest)) (fun l' => List.Forall₂ R l' l) rest := by
  obtain ⟨ws, h1, h2⟩ := readLoop_write h
  exact ⟨.nat l.length :: ws.flatten, by unfold writeList; rw [h1]; rfl, fun rest => h2 rest⟩

/-! ### Lists of index sets and of variables as a text -/

/-- What the loop over a list needs: the state is without points, and its rank is that of the elements without points. -/
structure LoopOk (k : Nat) (cur : IndexSet) (l : List IndexSet) : Prop where
  left : Left k cur
  split : ∃ sc ar, l = sc ++ ar ∧ (∀ s ∈ sc, SetOk k s ∧ s.isEmpty = true ∧ s.rank = 0) ∧
    (∀ s ∈ ar, SetOk k s ∧ s.isEmpty = false) ∧ (sc ≠ [] → cur.rank = 0)

theorem eq_rank {s t : IndexSet} (h : s.eq t = true) : s.rank = t.rank := by
  unfold IndexSet.eq at h
  by_contra hne
  simp [hne] at h

theorem LoopOk.head {k : Nat} {cur s : IndexSet} {l : List IndexSet} (h : LoopOk k cur (s :: l)) :
    SetOk k s ∧ (s.isEmpty = true → cur.rank = s.rank) := by
  obtain ⟨sc, ar, e, h1, h2, h3⟩ := h.split
  cases sc with
  | nil =>
    obtain ⟨a, b⟩ := h2 s (by rw [← List.nil_append ar, ← e]; simp)
    exact ⟨a, fun h => by rw [b] at h; cases h⟩
  | cons t sc =>
    simp only [List.cons_append, List.cons.injEq] at e
    obtain ⟨rfl, -⟩ := e
    obtain ⟨a, -, c⟩ := h1 s (by simp)
    exact ⟨a, fun _ => by rw [h3 (by simp), c]⟩

theorem LoopOk.tail {k : Nat} {cur s s' : IndexSet} {l : List IndexSet} (h : LoopOk k cur (s :: l))
    (h1 : StoredOk k s') (h2 : Spec.Serial.SameSet s' s) : LoopOk k s'.emptyCopy l := by
  refine ⟨⟨rfl, fun hi => h1.rank hi⟩, ?_⟩
  obtain ⟨sc, ar, e, a1, a2, a3⟩ := h.split
  cases sc with
  | nil =>
    rw [List.nil_append] at e
    exact ⟨[], l, rfl, by simp, fun t ht => a2 t (by rw [← e]; simp [ht]), fun h => absurd rfl h⟩
  | cons t sc =>
    simp only [List.cons_append, List.cons.injEq] at e
    obtain ⟨rfl, e⟩ := e
    refine ⟨sc, ar, e, fun t ht => a1 t (by simp [ht]), a2, fun _ => ?_⟩
    have := eq_rank h2
    rw [(a1 s (by simp)).2.2] at this
    exact this

/-- Parsing a variable from the text of a variable with a name. -/
theorem text_var {fuel k : Nat} (hk : 0 < k) {cur : IndexSet} {o : Option Sym} {v : Var} {n : Sym} (hn : v.name = some n)
    (hc : Left k cur) (hs : SetOk k v.indices) (he : v.indices.isEmpty = true → cur.rank = v.indices.rank) (rest : List Tok) :
    Reads (Mergeable v.indices) (parseVar fuel ⟨o, cur⟩ (printVar v ++ rest))
      (fun v' => SameVar v' v ∧ StoredOk k v'.indices) rest := by
  obtain ⟨nm, s⟩ := v
  cases hn
  simp only at hs he ⊢
  unfold printVar
  cases hemp : s.isEmpty with
  | true =>
    refine .inl ⟨⟨some n, cur⟩, rfl, ⟨rfl, ?_⟩, hc.stored⟩
    rcases load (fuel := fuel) hc hs he with ⟨s', h1, h2, -⟩ | ⟨-, h2⟩
    · rw [compact_empty hemp] at h1
      cases h1
      exact h2
    · rw [compact_empty hemp] at h2
      cases h2
  | false =>
    have e : (if false = true then [printName (some n)]
        else Tok.less :: printName (some n) :: .comma :: (printSet s ++ [.greater])) ++ rest =
        .less :: .sym n :: .comma :: (printSet s ++ (.greater :: rest)) := by
      simp [printName]
    simp only at e ⊢
    rw [e]
    simp only [parseVar]
    rcases text_set (fuel := fuel) hk hc hs he (.greater :: rest) with ⟨s', h1, h2, h3⟩ | ⟨hu, h1⟩
    · exact .inl ⟨⟨some n, s'⟩, by rw [h1]; rfl, ⟨rfl, h2⟩, h3⟩
    · exact .inr ⟨hu, by rw [h1]; rfl⟩

end Marco.Serial
