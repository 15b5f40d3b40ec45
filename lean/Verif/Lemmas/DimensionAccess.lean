import Verif.Spec.Access
import Verif.Lemmas.IndexSetOps

/-!
# Lemmas on dimension accesses
-/

namespace Marco
open Spec IndexSet

namespace IndexSet

theorem setOk_empty (k : Nat) : SetOk k empty := ⟨by simp [empty], by simp [empty]⟩

theorem not_has_empty (p : Point) : ¬ Has empty p := by simp [Has, ranges, empty, InL]

theorem union_spec {k : Nat} {s t : IndexSet} (hs : SetOk k s) (ht : SetOk k t) :
    SetOk k (s.union t) ∧ ∀ p, Has (s.union t) p ↔ Has s p ∨ Has t p := by
  have hr : ∀ r ∈ s.ranges ++ t.ranges, Ranked k r := by
    intro r h
    rcases List.mem_append.1 h with h | h
    · exact ranges_ranked hs r h
    · exact ranges_ranked ht r h
  obtain ⟨h1, _, h3, _⟩ := ofRanges_spec hr
  exact ⟨h1, fun p => by unfold union; rw [h3, inL_append]; rfl⟩

theorem addBox_spec {k : Nat} {s : IndexSet} {b : Box} (hs : SetOk k s) (hb : Ranked k b) :
    SetOk k (s.addBox b) ∧ ∀ p, Has (s.addBox b) p ↔ Has s p ∨ InB p b := by
  have hr : ∀ r ∈ s.ranges ++ [b], Ranked k r := by
    intro r h
    rcases List.mem_append.1 h with h | h
    · exact ranges_ranked hs r h
    · rw [List.mem_singleton.1 h]; exact hb
  obtain ⟨h1, _, h3, _⟩ := ofRanges_spec hr
  refine ⟨h1, fun p => ?_⟩
  have e1 : InL p [b] ↔ InB p b := by simp [InL]
  unfold addBox
  rw [h3, inL_append, e1]; rfl

theorem addPoint_spec {k : Nat} (hk : 0 < k) {s : IndexSet} {x : Point} (hs : SetOk k s)
    (hx : x.length = k) :
    SetOk k (s.addPoint x) ∧ ∀ p, Has (s.addPoint x) p ↔ Has s p ∨ p = x := by
  have := addBox_spec hs (ofPoint_ranked hx hk)
  refine ⟨this.1, fun p => ?_⟩
  have h2 := this.2 p
  rw [inB_ofPoint] at h2
  exact h2

theorem ofPoints_spec {k : Nat} (hk : 0 < k) {ps : List Point} (h : ∀ p ∈ ps, p.length = k) :
    SetOk k (ofPoints ps) ∧ ∀ p, Has (ofPoints ps) p ↔ p ∈ ps := by
  have hr : ∀ r ∈ ps.map Box.ofPoint, Ranked k r := by
    intro r hr
    obtain ⟨p, hp, rfl⟩ := List.mem_map.1 hr
    exact ofPoint_ranked (h p hp) hk
  obtain ⟨h1, _, h3, _⟩ := ofRanges_spec hr
  refine ⟨h1, fun p => ?_⟩
  unfold ofPoints
  rw [h3]
  simp [InL, inB_ofPoint]

theorem mem_points {s : IndexSet} {p : Point} : p ∈ s.points ↔ Has s p := mem_enumL

theorem has_length {k : Nat} {s : IndexSet} (hs : SetOk k s) {p : Point} (h : Has s p) :
    p.length = k := by
  obtain ⟨b, hb, hp⟩ := h
  rw [← Box.inB_length hp, (ranges_ranked hs b hb).2]

end IndexSet

namespace DimAccess

/-- Repeated insertion of points obtained from the elements of a list. -/
theorem foldlM_addPoint {α : Type} {k : Nat} (hk : 0 < k) (g : α → Option Point) :
    ∀ (l : List α) (acc s : IndexSet), (∀ a ∈ l, ∀ x, g a = some x → x.length = k) →
    SetOk k acc →
    l.foldlM (fun acc a => (g a).map acc.addPoint) acc = some s →
    SetOk k s ∧ (∀ p, Has s p ↔ Has acc p ∨ ∃ a ∈ l, g a = some p) ∧ ∀ a ∈ l, (g a).isSome := by
  intro l
  induction l with
  | nil =>
    intro acc s _ ha h
    simp only [List.foldlM_nil, Option.pure_def, Option.some.injEq] at h
    subst h
    simpa using ha
  | cons a l ih =>
    intro acc s hl ha h
    rw [List.foldlM_cons] at h
    cases hg : g a with
    | none => simp [hg] at h
    | some x =>
      simp only [hg, Option.map_some, Option.bind_eq_bind, Option.bind_some] at h
      have hx := addPoint_spec hk ha (hl a (by simp) x hg)
      obtain ⟨h1, h2, h3⟩ := ih _ s (fun b hb => hl b (by simp [hb])) hx.1 h
      refine ⟨h1, fun p => ?_, ?_⟩
      · rw [h2, hx.2]
        simp only [List.mem_cons, exists_eq_or_imp, hg, Option.some.injEq, or_assoc, @eq_comm _ p x]
      · intro b hb
        rcases List.mem_cons.1 hb with rfl | hb
        · simp [hg]
        · exact h3 b hb

theorem foldlM_addPoint_some {α : Type} (g : α → Option Point) :
    ∀ (l : List α) (acc : IndexSet), (∀ a ∈ l, (g a).isSome) →
    (l.foldlM (fun acc a => (g a).map (IndexSet.addPoint acc)) acc).isSome := by
  intro l
  induction l with
  | nil => simp
  | cons a l ih =>
    intro acc h
    obtain ⟨x, hx⟩ := Option.isSome_iff_exists.1 (h a (by simp))
    rw [List.foldlM_cons, hx]
    exact ih _ (fun b hb => h b (by simp [hb]))

theorem pointOp_one {f : Int → Int → Option Int} (x y : Int) :
    pointOp f [x] [y] = (f x y).map fun v => [v] := by
  cases h : f x y <;> simp [pointOp, h]

theorem has_one {s : IndexSet} (hs : SetOk 1 s) {p : Point} (h : Has s p) : ∃ x, p = [x] :=
  List.length_eq_one_iff.1 (has_length hs h)

theorem binaryOp_spec {f : Int → Int → Option Int} {l r s : IndexSet} (hl : SetOk 1 l)
    (hr : SetOk 1 r) (h : binaryOp f l r = some s) :
    SetOk 1 s ∧ (∀ p, Has s p ↔ ∃ x y v, Has l [x] ∧ Has r [y] ∧ f x y = some v ∧ p = [v]) ∧
    ∀ x y, Has l [x] → Has r [y] → (f x y).isSome := by
  have key := foldlM_addPoint (k := 1) (by omega) (fun pq : Point × Point => pointOp f pq.1 pq.2)
    (l.points.flatMap fun p => r.points.map fun q => (p, q)) IndexSet.empty s ?_
    (setOk_empty 1) h
  · obtain ⟨h1, h2, h3⟩ := key
    refine ⟨h1, fun p => ?_, ?_⟩
    · rw [h2]
      constructor
      · rintro (h | ⟨⟨a, b⟩, hab, h⟩)
        · exact absurd h (not_has_empty p)
        · simp only [List.mem_flatMap, List.mem_map, mem_points, Prod.mk.injEq] at hab
          obtain ⟨a, ha, b, hb, rfl, rfl⟩ := hab
          obtain ⟨x, rfl⟩ := has_one hl ha
          obtain ⟨y, rfl⟩ := has_one hr hb
          rw [pointOp_one] at h
          obtain ⟨v, hv, rfl⟩ := Option.map_eq_some_iff.1 h
          exact ⟨x, y, v, ha, hb, hv, rfl⟩
      · rintro ⟨x, y, v, ha, hb, hv, rfl⟩
        refine Or.inr ⟨([x], [y]), ?_, by simp [pointOp_one, hv]⟩
        simp only [List.mem_flatMap, List.mem_map, mem_points, Prod.mk.injEq]
        exact ⟨[x], ha, [y], hb, rfl, rfl⟩
    · intro x y ha hb
      have := h3 ([x], [y]) (by
        simp only [List.mem_flatMap, List.mem_map, mem_points, Prod.mk.injEq]
        exact ⟨[x], ha, [y], hb, rfl, rfl⟩)
      rw [pointOp_one] at this
      simpa using this
  · rintro ⟨a, b⟩ hab x hx
    simp only [List.mem_flatMap, List.mem_map, mem_points, Prod.mk.injEq] at hab
    obtain ⟨a, ha, b, hb, rfl, rfl⟩ := hab
    obtain ⟨x, rfl⟩ := has_one hl ha
    obtain ⟨y, rfl⟩ := has_one hr hb
    rw [pointOp_one] at hx
    obtain ⟨v, hv, rfl⟩ := Option.map_eq_some_iff.1 hx
    rfl

theorem binaryOp_isSome {f : Int → Int → Option Int} {l r : IndexSet} (hl : SetOk 1 l)
    (hr : SetOk 1 r) (h : ∀ x y, Has l [x] → Has r [y] → (f x y).isSome) :
    (binaryOp f l r).isSome := by
  apply foldlM_addPoint_some (fun pq : Point × Point => pointOp f pq.1 pq.2)
  rintro ⟨a, b⟩ hab
  simp only [List.mem_flatMap, List.mem_map, mem_points, Prod.mk.injEq] at hab
  obtain ⟨a, ha, b, hb, rfl, rfl⟩ := hab
  obtain ⟨x, rfl⟩ := has_one hl ha
  obtain ⟨y, rfl⟩ := has_one hr hb
  rw [pointOp_one]
  simpa using h x y ha hb

theorem foldlM_addBox (d : Nat) {k : Nat} (hd : d < k) :
    ∀ (l : List Box) (acc : IndexSet), (∀ b ∈ l, Ranked k b) → SetOk 1 acc →
    ∃ s, l.foldlM (fun acc b => (b[d]?).map fun r => IndexSet.addBox acc [r]) acc = some s ∧
      SetOk 1 s ∧ ∀ p, Has s p ↔ Has acc p ∨ ∃ q v, InL q l ∧ q[d]? = some v ∧ p = [v] := by
  intro l
  induction l with
  | nil => intro acc _ ha; exact ⟨acc, by simp, ha, by simp [InL]⟩
  | cons b l ih =>
    intro acc hl ha
    have hb := hl b (by simp)
    have hlt : d < b.length := by rw [hb.2]; exact hd
    have hg : b[d]? = some b[d] := List.getElem?_eq_getElem hlt
    have hv : (b[d]).Valid := hb.1.2 _ (List.getElem_mem hlt)
    have hx := addBox_spec (b := [b[d]]) ha ⟨⟨by simp, by simpa using hv⟩, rfl⟩
    obtain ⟨s, h1, h2, h3⟩ := ih (acc.addBox [b[d]]) (fun c hc => hl c (by simp [hc])) hx.1
    refine ⟨s, ?_, h2, fun p => ?_⟩
    · rw [List.foldlM_cons, hg]; exact h1
    · rw [h3, hx.2, or_assoc]
      refine or_congr Iff.rfl ?_
      simp only [inL_cons]
      constructor
      · rintro (h | ⟨q, v, h, h'⟩)
        · obtain ⟨v, vs, rfl, h4, h5⟩ := (Box.inB_cons _ _ _).1 h
          rw [Box.inB_nil] at h5
          subst h5
          obtain ⟨q, hq⟩ := Box.exists_inB hb.1.2
          have : InB (q.set d v) b := by
            rw [inB_iff_get] at hq ⊢
            refine ⟨by simpa using hq.1, ?_⟩
            intro i r x hr hx
            by_cases hid : d = i
            · subst hid
              rw [hg] at hr
              rw [List.getElem?_set_self (by omega)] at hx
              rw [← Option.some.inj hr, ← Option.some.inj hx]
              exact h4
            · rw [List.getElem?_set_ne hid] at hx
              exact hq.2 i r x hr hx
          exact ⟨_, v, Or.inl this, by simp [← Box.inB_length hq, hlt], rfl⟩
        · exact ⟨q, v, Or.inr h, h'⟩
      · rintro ⟨q, v, h | h, hq, rfl⟩
        · left
          rw [Box.inB_cons]
          exact ⟨v, [], rfl, (inB_iff_get.1 h).2 d _ v hg hq, (Box.inB_nil _).2 rfl⟩
        · exact Or.inr ⟨q, v, h, hq, rfl⟩

/-- The exact meaning of the set computed by `DimensionAccess::map`. -/
theorem map_spec {p : Point} {env : Env} : ∀ {a : DimAccess} {s : IndexSet}, DimOk a →
    map a p env = some s →
    SetOk 1 s ∧ ∀ x, Has s x ↔ ∃ v, x = [v] ∧ Denotes p env a v := by
  intro a
  have hone : ∀ v : Int, SetOk 1 (ofPoints [[v]]) ∧ ∀ x, Has (ofPoints [[v]]) x ↔ x = [v] := by
    intro v
    have := ofPoints_spec (k := 1) (ps := [[v]]) (by omega) (by simp)
    exact ⟨this.1, fun x => by rw [this.2]; simp⟩
  induction a with
  | const v =>
    intro s _ h
    simp only [map, Option.some.injEq] at h
    subst h
    refine ⟨(hone v).1, fun x => ?_⟩
    rw [(hone v).2]
    constructor
    · rintro rfl; exact ⟨v, rfl, .const v⟩
    · rintro ⟨w, rfl, h⟩; cases h; rfl
  | dim d =>
    intro s _ h
    simp only [map] at h
    obtain ⟨v, hv, rfl⟩ := Option.map_eq_some_iff.1 h
    refine ⟨(hone v).1, fun x => ?_⟩
    rw [(hone v).2]
    constructor
    · rintro rfl; exact ⟨v, rfl, .dim hv⟩
    · rintro ⟨w, rfl, h⟩
      cases h with
      | dim h => rw [hv] at h; rw [Option.some.inj h]
  | add a b iha ihb =>
    intro s ho h
    cases ho with
    | add hoa hob =>
      simp only [map, Option.bind_eq_bind, Option.bind_eq_some_iff] at h
      obtain ⟨l, hl, r, hr, h⟩ := h
      obtain ⟨l1, l2⟩ := iha hoa hl
      obtain ⟨r1, r2⟩ := ihb hob hr
      obtain ⟨h1, h2, -⟩ := binaryOp_spec l1 r1 h
      refine ⟨h1, fun x => ?_⟩
      rw [h2]
      constructor
      · rintro ⟨x, y, v, hx, hy, hv, rfl⟩
        obtain ⟨x', e, dx⟩ := (l2 _).1 hx
        obtain ⟨y', e', dy⟩ := (r2 _).1 hy
        simp only [List.cons.injEq, and_true, Option.some.injEq] at e e' hv
        subst e e' hv
        exact ⟨_, rfl, .add dx dy⟩
      · rintro ⟨v, rfl, h⟩
        cases h with
        | @add _ _ x y dx dy =>
          exact ⟨x, y, _, (l2 _).2 ⟨x, rfl, dx⟩, (r2 _).2 ⟨y, rfl, dy⟩, rfl, rfl⟩
  | sub a b iha ihb =>
    intro s ho h
    cases ho with
    | sub hoa hob =>
      simp only [map, Option.bind_eq_bind, Option.bind_eq_some_iff] at h
      obtain ⟨l, hl, r, hr, h⟩ := h
      obtain ⟨l1, l2⟩ := iha hoa hl
      obtain ⟨r1, r2⟩ := ihb hob hr
      obtain ⟨h1, h2, -⟩ := binaryOp_spec l1 r1 h
      refine ⟨h1, fun x => ?_⟩
      rw [h2]
      constructor
      · rintro ⟨x, y, v, hx, hy, hv, rfl⟩
        obtain ⟨x', e, dx⟩ := (l2 _).1 hx
        obtain ⟨y', e', dy⟩ := (r2 _).1 hy
        simp only [List.cons.injEq, and_true, Option.some.injEq] at e e' hv
        subst e e' hv
        exact ⟨_, rfl, .sub dx dy⟩
      · rintro ⟨v, rfl, h⟩
        cases h with
        | @sub _ _ x y dx dy =>
          exact ⟨x, y, _, (l2 _).2 ⟨x, rfl, dx⟩, (r2 _).2 ⟨y, rfl, dy⟩, rfl, rfl⟩
  | mul a b iha ihb =>
    intro s ho h
    cases ho with
    | mul hoa hob =>
      simp only [map, Option.bind_eq_bind, Option.bind_eq_some_iff] at h
      obtain ⟨l, hl, r, hr, h⟩ := h
      obtain ⟨l1, l2⟩ := iha hoa hl
      obtain ⟨r1, r2⟩ := ihb hob hr
      obtain ⟨h1, h2, -⟩ := binaryOp_spec l1 r1 h
      refine ⟨h1, fun x => ?_⟩
      rw [h2]
      constructor
      · rintro ⟨x, y, v, hx, hy, hv, rfl⟩
        obtain ⟨x', e, dx⟩ := (l2 _).1 hx
        obtain ⟨y', e', dy⟩ := (r2 _).1 hy
        simp only [List.cons.injEq, and_true, Option.some.injEq] at e e' hv
        subst e e' hv
        exact ⟨_, rfl, .mul dx dy⟩
      · rintro ⟨v, rfl, h⟩
        cases h with
        | @mul _ _ x y dx dy =>
          exact ⟨x, y, _, (l2 _).2 ⟨x, rfl, dx⟩, (r2 _).2 ⟨y, rfl, dy⟩, rfl, rfl⟩
  | div a b iha ihb =>
    intro s ho h
    cases ho with
    | div hoa hob =>
      simp only [map, Option.bind_eq_bind, Option.bind_eq_some_iff] at h
      obtain ⟨l, hl, r, hr, h⟩ := h
      obtain ⟨l1, l2⟩ := iha hoa hl
      obtain ⟨r1, r2⟩ := ihb hob hr
      obtain ⟨h1, h2, h3⟩ := binaryOp_spec l1 r1 h
      refine ⟨h1, fun x => ?_⟩
      rw [h2]
      constructor
      · rintro ⟨x, y, v, hx, hy, hv, rfl⟩
        obtain ⟨x', e, dx⟩ := (l2 _).1 hx
        obtain ⟨y', e', dy⟩ := (r2 _).1 hy
        simp only [cdiv, List.cons.injEq, and_true] at e e' hv
        split_ifs at hv
        simp only [Option.some.injEq] at hv
        subst e e' hv
        exact ⟨_, rfl, .div dx dy⟩
      · rintro ⟨v, rfl, h⟩
        cases h with
        | @div _ _ x y dx dy =>
          have hx := (l2 _).2 ⟨x, rfl, dx⟩
          have hy := (r2 _).2 ⟨y, rfl, dy⟩
          have := h3 x y hx hy
          refine ⟨x, y, _, hx, hy, ?_, rfl⟩
          unfold cdiv at this ⊢
          split_ifs at this ⊢
          · simp at this
          · rfl
  | range r =>
    intro s ho h
    cases ho with
    | range hr =>
      simp only [map, Option.some.injEq] at h
      subst h
      obtain ⟨h1, _, h3, _⟩ := ofRanges_spec (k := 1) (rs := [[r]])
        (by intro b hb; rw [List.mem_singleton.1 hb]; exact ⟨⟨by simp, by simpa using hr⟩, rfl⟩)
      refine ⟨h1, fun x => ?_⟩
      rw [h3]
      constructor
      · rintro ⟨b, hb, hx⟩
        rw [List.mem_singleton.1 hb, Box.inB_cons] at hx
        obtain ⟨v, vs, rfl, h4, h5⟩ := hx
        rw [Box.inB_nil] at h5
        subst h5
        exact ⟨v, rfl, .range h4⟩
      · rintro ⟨v, rfl, h⟩
        cases h with
        | range h =>
          exact ⟨[r], by simp, (Box.inB_cons _ _ _).2 ⟨v, [], rfl, h, (Box.inB_nil _).2 rfl⟩⟩
  | indices key space d deps =>
    intro s ho h
    cases ho with
    | @indices _ _ _ k _ hs hd =>
      simp only [map] at h
      split_ifs at h with hdeps
      · have hdeps' : deps = [] := by simpa using hdeps
        subst hdeps'
        obtain ⟨s', e, h1, h2⟩ := foldlM_addBox d hd space.ranges IndexSet.empty
          (ranges_ranked hs) (setOk_empty 1)
        rw [e] at h
        simp only [Option.some.injEq] at h
        subst h
        refine ⟨h1, fun x => ?_⟩
        rw [h2]
        constructor
        · rintro (h | ⟨q, v, h, hq, rfl⟩)
          · exact absurd h (not_has_empty x)
          · exact ⟨v, rfl, .indices h hq⟩
        · rintro ⟨v, rfl, h⟩
          cases h with
          | @indices _ _ _ q _ h hq => exact Or.inr ⟨q, v, h, hq, rfl⟩
          | indicesDep h => exact absurd rfl h
      · have hdeps' : deps ≠ [] := by simpa using hdeps
        simp only [Option.bind_eq_bind, Option.bind_eq_some_iff, Option.some.injEq] at h
        obtain ⟨q, hq, v, hv, rfl⟩ := h
        refine ⟨(hone v).1, fun x => ?_⟩
        rw [(hone v).2]
        constructor
        · rintro rfl; exact ⟨v, rfl, .indicesDep hdeps' hq hv⟩
        · rintro ⟨w, rfl, h⟩
          cases h with
          | indices h => exact absurd rfl hdeps'
          | @indicesDep _ _ _ _ q' _ _ h1 h2 =>
            rw [hq] at h1
            rw [← Option.some.inj h1, hv] at h2
            rw [Option.some.inj h2]

end DimAccess
end Marco
