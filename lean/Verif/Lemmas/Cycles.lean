import Verif.Model.Cycles
import Mathlib.Data.List.Chain
import Mathlib.Data.List.Forall2

/-! Helper lemmas about the search of cycles among equations. -/

namespace Marco.Cycles
open Marco

theorem mem_map {a : Acc} {s : Finset Point} {v : Point} : v ∈ a.map s ↔ ∃ i ∈ s, v ∈ a.img i := by
  simp [Acc.map]

theorem nonempty_iff {s t : Finset Point} : s ∩ t ≠ ∅ ↔ ∃ v ∈ s, v ∈ t := by
  rw [← Finset.nonempty_iff_ne_empty]
  simp [Finset.Nonempty]

theorem mem_inverseMap {a : Acc} {vs es : Finset Point} {i : Point} :
    i ∈ a.inverseMap vs es ↔ i ∈ es ∧ ∃ v ∈ a.img i, v ∈ vs := by
  rw [Acc.inverseMap, Finset.mem_filter, nonempty_iff]

theorem map_mono {a : Acc} {s t : Finset Point} (h : s ⊆ t) : a.map s ⊆ a.map t := by
  intro v hv
  rw [mem_map] at hv ⊢
  obtain ⟨i, hi, hv⟩ := hv
  exact ⟨i, h hi, hv⟩

theorem mem_writingIndices {e : Eqn} {vs : Finset Point} {i : Point} :
    i ∈ writingIndices e vs ↔ i ∈ e.it ∧ ∃ a ∈ e.writes, ∃ v ∈ a.img i, v ∈ vs := by
  have : ∀ (l : List Acc) (s : Finset Point),
      i ∈ l.foldl (fun s a => s ∪ a.inverseMap vs e.it) s ↔
        i ∈ s ∨ i ∈ e.it ∧ ∃ a ∈ l, ∃ v ∈ a.img i, v ∈ vs := by
    intro l
    induction l with
    | nil => simp
    | cons a l ih =>
      intro s
      rw [List.foldl_cons, ih, Finset.mem_union, mem_inverseMap]
      simp only [List.mem_cons, exists_eq_or_imp, and_or_left, or_assoc]
  rw [writingIndices, this]
  simp

/-! ### Paths -/

/-- The same node, with fewer indices. -/
def Dep.Sub (d' d : Dep) : Prop := d'.eq = d.eq ∧ d'.wa = d.wa ∧ d'.ra = d.ra ∧ d'.idx ⊆ d.idx

theorem Dep.Sub.refl (d : Dep) : d.Sub d := ⟨rfl, rfl, rfl, subset_rfl⟩

theorem Dep.Sub.trans {a b c : Dep} (h : a.Sub b) (h' : b.Sub c) : a.Sub c :=
  ⟨h.1.trans h'.1, h.2.1.trans h'.2.1, h.2.2.1.trans h'.2.2.1, h.2.2.2.trans h'.2.2.2⟩

/-- Every index of the second node writes something read by the first. -/
def Fw (a b : Dep) : Prop :=
  ∀ j ∈ b.idx, a.ra.var = b.wa.var ∧ ∃ v ∈ b.wa.img j, v ∈ a.ra.map a.idx

/-- Every index of the first node reads something written by the second. -/
def Bw (a b : Dep) : Prop :=
  ∀ i ∈ a.idx, a.ra.var = b.wa.var ∧ ∃ v ∈ a.ra.img i, v ∈ b.wa.map b.idx

/-- Two consecutive nodes of a path. -/
def Link (a b : Dep) : Prop := Fw a b ∧ Bw a b

theorem Fw.sub {a b b' : Dep} (h : Fw a b) (hb : b'.Sub b) : Fw a b' := by
  intro j hj
  rw [hb.2.1]
  exact h j (hb.2.2.2 hj)

theorem Bw.sub {a a' b : Dep} (h : Bw a b) (ha : a'.Sub a) : Bw a' b := by
  intro j hj
  rw [ha.2.2.1]
  exact h j (ha.2.2.2 hj)

theorem forall2_refl (l : List Dep) : List.Forall₂ Dep.Sub l l := by
  induction l with
  | nil => exact .nil
  | cons a l ih => exact .cons (.refl a) ih

theorem fwd_sub : ∀ (x : Dep) (cs : List Dep), List.Forall₂ Dep.Sub (fwd x cs) cs
  | x, [] => .nil
  | x, c :: cs => by
    rw [fwd]
    simp only
    split
    · exact .cons ⟨rfl, rfl, rfl, subset_rfl⟩ (forall2_refl cs)
    · exact .cons ⟨rfl, rfl, rfl, fun i hi => (mem_inverseMap.1 hi).1⟩ (fwd_sub _ cs)

theorem bwd_sub : ∀ (x : Dep) (cs : List Dep), List.Forall₂ Dep.Sub (bwd x cs) cs
  | x, [] => .nil
  | x, c :: cs => by
    rw [bwd]
    simp only
    split
    · exact .cons ⟨rfl, rfl, rfl, subset_rfl⟩ (forall2_refl cs)
    · exact .cons ⟨rfl, rfl, rfl, fun i hi => (mem_inverseMap.1 hi).1⟩ (bwd_sub _ cs)

/-- Only the equations, the accesses and the indices matter. -/
theorem chain_head {a a' : Dep} {l : List Dep} {R : Dep → Dep → Prop}
    (h : ∀ c, R a c → R a' c) (hl : List.IsChain R (a :: l)) : List.IsChain R (a' :: l) := by
  rw [List.isChain_cons] at hl ⊢
  exact ⟨fun y hy => h y (hl.1 y hy), hl.2⟩

theorem fwd_chain : ∀ {x : Dep} {cs : List Dep}, x.read = x.ra.map x.idx → List.IsChain Link cs →
    (∀ c ∈ cs.head?, Bw x c) → List.IsChain Link (x :: fwd x cs)
  | x, [], _, _, _ => by simp [fwd]
  | x, c :: cs, hx, hl, hb => by
    have hb := hb c rfl
    rw [fwd]
    simp only
    split
    · rename_i he
      rw [List.isChain_cons_cons]
      refine ⟨⟨fun j hj => ?_, hb⟩, chain_head (a := c) (fun c' h => h) hl⟩
      have hj : j ∈ c.wa.inverseMap x.read c.idx := by rw [he]; exact hj
      obtain ⟨v, hv1, hv2⟩ := (mem_inverseMap.1 hj).2
      rw [hx] at hv2
      obtain ⟨i, hi, -⟩ := mem_map.1 hv2
      exact ⟨(hb i hi).1, v, hv1, hv2⟩
    · rw [List.isChain_cons_cons]
      refine ⟨⟨fun j hj => ?_, fun i hi => ?_⟩, ?_⟩
      · obtain ⟨v, hv1, hv2⟩ := (mem_inverseMap.1 hj).2
        rw [hx] at hv2
        obtain ⟨i, hi, -⟩ := mem_map.1 hv2
        exact ⟨(hb i hi).1, v, hv1, hv2⟩
      · obtain ⟨hvar, v, hv1, hv2⟩ := hb i hi
        refine ⟨hvar, v, hv1, ?_⟩
        obtain ⟨j, hj, hv⟩ := mem_map.1 hv2
        refine mem_map.2 ⟨j, mem_inverseMap.2 ⟨hj, v, hv, ?_⟩, hv⟩
        rw [hx]
        exact mem_map.2 ⟨i, hi, hv1⟩
      · refine fwd_chain rfl hl.tail fun c' hc' => ?_
        exact (hl.rel_head? hc').2.sub ⟨rfl, rfl, rfl, fun i hi => (mem_inverseMap.1 hi).1⟩

theorem bwd_chain : ∀ {x : Dep} {cs : List Dep}, x.written = x.wa.map x.idx →
    List.IsChain (flip Link) cs → (∀ c ∈ cs.head?, Fw c x) →
    List.IsChain (flip Link) (x :: bwd x cs)
  | x, [], _, _, _ => by simp [bwd]
  | x, c :: cs, hx, hl, hb => by
    have hb := hb c rfl
    rw [bwd]
    simp only
    split
    · rename_i he
      rw [List.isChain_cons_cons]
      refine ⟨⟨hb, fun j hj => ?_⟩, chain_head (a := c) (fun c' h => h) hl⟩
      have hj : j ∈ c.ra.inverseMap x.written c.idx := by rw [he]; exact hj
      obtain ⟨v, hv1, hv2⟩ := (mem_inverseMap.1 hj).2
      rw [hx] at hv2
      obtain ⟨i, hi, -⟩ := mem_map.1 hv2
      exact ⟨(hb i hi).1, v, hv1, hv2⟩
    · rw [List.isChain_cons_cons]
      refine ⟨⟨fun i hi => ?_, fun j hj => ?_⟩, ?_⟩
      · obtain ⟨hvar, v, hv1, hv2⟩ := hb i hi
        refine ⟨hvar, v, hv1, ?_⟩
        obtain ⟨j, hj, hv⟩ := mem_map.1 hv2
        refine mem_map.2 ⟨j, mem_inverseMap.2 ⟨hj, v, hv, ?_⟩, hv⟩
        rw [hx]
        exact mem_map.2 ⟨i, hi, hv1⟩
      · obtain ⟨v, hv1, hv2⟩ := (mem_inverseMap.1 hj).2
        rw [hx] at hv2
        obtain ⟨i, hi, -⟩ := mem_map.1 hv2
        exact ⟨(hb i hi).1, v, hv1, hv2⟩
      · refine bwd_chain rfl hl.tail fun c' hc' => ?_
        exact (show Link c' c from hl.rel_head? hc').1.sub
          ⟨rfl, rfl, rfl, fun i hi => (mem_inverseMap.1 hi).1⟩

/-- Some node of the path has this scalar equation. -/
def Cov (e : Nat) (p : Point) (l : List Dep) : Prop := ∃ d ∈ l, d.eq = e ∧ p ∈ d.idx

theorem cov_cons {e : Nat} {p : Point} {d : Dep} {l : List Dep} :
    Cov e p (d :: l) ↔ (d.eq = e ∧ p ∈ d.idx) ∨ Cov e p l := by
  simp [Cov]

theorem cov_append {e : Nat} {p : Point} {l l' : List Dep} :
    Cov e p (l ++ l') ↔ Cov e p l ∨ Cov e p l' := by
  simp [Cov, or_and_right, exists_or]

theorem cov_reverse {e : Nat} {p : Point} {l : List Dep} : Cov e p l.reverse ↔ Cov e p l := by
  simp [Cov]

theorem cov_of_sub {e : Nat} {p : Point} {l l' : List Dep} (h : List.Forall₂ Dep.Sub l' l)
    (hc : Cov e p l') : Cov e p l := by
  obtain ⟨d, hd, he, hp⟩ := hc
  induction h with
  | nil => cases hd
  | @cons a b l1 l2 hab _ ih =>
    rw [cov_cons]
    rcases List.mem_cons.1 hd with rfl | hd
    · exact .inl ⟨hab.1.symm.trans he, hab.2.2.2 hp⟩
    · exact .inr (ih hd)

/-- If a node is divided in two, each index of the following nodes is in one of the two paths. -/
theorem fwd_cov {e : Nat} {p : Point} : ∀ {y x1 x2 : Dep} {cs : List Dep},
    List.IsChain Link (y :: cs) → x1.ra = y.ra → x2.ra = y.ra → y.idx ⊆ x1.idx ∪ x2.idx →
    x1.read = x1.ra.map x1.idx → x2.read = x2.ra.map x2.idx → Cov e p cs →
    Cov e p (fwd x1 cs) ∨ Cov e p (fwd x2 cs)
  | y, x1, x2, [], _, _, _, _, _, _, h => by obtain ⟨d, hd, -⟩ := h; cases hd
  | y, x1, x2, c :: cs, hl, h1, h2, hy, hr1, hr2, h => by
    rw [fwd, fwd]
    simp only
    have hcov : c.idx ⊆ c.wa.inverseMap x1.read c.idx ∪ c.wa.inverseMap x2.read c.idx := by
      intro j hj
      obtain ⟨-, v, hv1, hv2⟩ := (List.isChain_cons_cons.1 hl).1.1 j hj
      obtain ⟨i, hi, hv2⟩ := mem_map.1 hv2
      rw [Finset.mem_union, mem_inverseMap, mem_inverseMap, hr1, hr2, h1, h2]
      rcases Finset.mem_union.1 (hy hi) with hi | hi
      · exact .inl ⟨hj, v, hv1, mem_map.2 ⟨i, hi, hv2⟩⟩
      · exact .inr ⟨hj, v, hv1, mem_map.2 ⟨i, hi, hv2⟩⟩
    have keep : ∀ c' : Dep, c'.eq = c.eq → c'.idx = c.idx → Cov e p (c' :: cs) := by
      intro c' h1 h2
      rw [cov_cons, h1, h2, ← cov_cons]
      exact h
    split
    · exact .inl (keep _ rfl rfl)
    · split
      · exact .inr (keep _ rfl rfl)
      · rw [cov_cons, cov_cons]
        rcases cov_cons.1 h with ⟨h3, h4⟩ | h3
        · rcases Finset.mem_union.1 (hcov h4) with h5 | h5
          · exact .inl (.inl ⟨h3, h5⟩)
          · exact .inr (.inl ⟨h3, h5⟩)
        · rcases fwd_cov (y := c) (x1 := ⟨c.eq, c.wa.inverseMap x1.read c.idx, c.wa, x1.read, c.ra,
              c.ra.map (c.wa.inverseMap x1.read c.idx)⟩) (x2 := ⟨c.eq, c.wa.inverseMap x2.read c.idx, c.wa, x2.read, c.ra,
              c.ra.map (c.wa.inverseMap x2.read c.idx)⟩) hl.tail rfl rfl hcov rfl rfl h3
            with h4 | h4
          · exact .inl (.inr h4)
          · exact .inr (.inr h4)

theorem bwd_cov {e : Nat} {p : Point} : ∀ {y x1 x2 : Dep} {cs : List Dep},
    List.IsChain (flip Link) (y :: cs) → x1.wa = y.wa → x2.wa = y.wa → y.idx ⊆ x1.idx ∪ x2.idx →
    x1.written = x1.wa.map x1.idx → x2.written = x2.wa.map x2.idx → Cov e p cs →
    Cov e p (bwd x1 cs) ∨ Cov e p (bwd x2 cs)
  | y, x1, x2, [], _, _, _, _, _, _, h => by obtain ⟨d, hd, -⟩ := h; cases hd
  | y, x1, x2, c :: cs, hl, h1, h2, hy, hr1, hr2, h => by
    rw [bwd, bwd]
    simp only
    have hcov : c.idx ⊆ c.ra.inverseMap x1.written c.idx ∪ c.ra.inverseMap x2.written c.idx := by
      intro j hj
      obtain ⟨-, v, hv1, hv2⟩ := (show Link c y from (List.isChain_cons_cons.1 hl).1).2 j hj
      obtain ⟨i, hi, hv2⟩ := mem_map.1 hv2
      rw [Finset.mem_union, mem_inverseMap, mem_inverseMap, hr1, hr2, h1, h2]
      rcases Finset.mem_union.1 (hy hi) with hi | hi
      · exact .inl ⟨hj, v, hv1, mem_map.2 ⟨i, hi, hv2⟩⟩
      · exact .inr ⟨hj, v, hv1, mem_map.2 ⟨i, hi, hv2⟩⟩
    have keep : ∀ c' : Dep, c'.eq = c.eq → c'.idx = c.idx → Cov e p (c' :: cs) := by
      intro c' h1 h2
      rw [cov_cons, h1, h2, ← cov_cons]
      exact h
    split
    · exact .inl (keep _ rfl rfl)
    · split
      · exact .inr (keep _ rfl rfl)
      · rw [cov_cons, cov_cons]
        rcases cov_cons.1 h with ⟨h3, h4⟩ | h3
        · rcases Finset.mem_union.1 (hcov h4) with h5 | h5
          · exact .inl (.inl ⟨h3, h5⟩)
          · exact .inr (.inl ⟨h3, h5⟩)
        · rcases bwd_cov (y := c) (x1 := ⟨c.eq, c.ra.inverseMap x1.written c.idx, c.wa,
              c.wa.map (c.ra.inverseMap x1.written c.idx), c.ra, x1.written⟩)
              (x2 := ⟨c.eq, c.ra.inverseMap x2.written c.idx, c.wa,
              c.wa.map (c.ra.inverseMap x2.written c.idx), c.ra, x2.written⟩) hl.tail rfl rfl hcov rfl rfl h3
            with h4 | h4
          · exact .inl (.inr h4)
          · exact .inr (.inr h4)

/-! ### Splitting -/

theorem list_split {α : Type*} {l : List α} {k : Nat} {d : α} (h : l[k]? = some d) :
    l = l.take k ++ d :: l.drop (k + 1) := by
  obtain ⟨hk, rfl⟩ := List.getElem?_eq_some_iff.1 h
  rw [List.getElem_cons_drop, List.take_append_drop]

theorem setAt_eq {l cs : List Dep} {d : Dep} {s : Finset Point} :
    setAt (l ++ d :: cs) l.length s =
      (bwd (setIdx d s) l.reverse).reverse ++ setIdx d s :: fwd (setIdx d s) cs := by
  have h1 : (l ++ d :: cs).modify l.length (fun d => setIdx d s) = l ++ setIdx d s :: cs := by
    induction l with
    | nil => rfl
    | cons a l ih => simpa using ih
  unfold setAt
  rw [h1, restrictForward, List.drop_left]
  simp only [List.take_left]
  rw [restrictBackward, List.drop_left]
  simp only [List.take_left]

/-- The links of a path around a node. -/
theorem chain_around {l cs : List Dep} {d : Dep} :
    List.IsChain Link (l ++ d :: cs) ↔
      List.IsChain (flip Link) (d :: l.reverse) ∧ List.IsChain Link (d :: cs) := by
  rw [List.isChain_split, ← List.isChain_reverse, List.reverse_append]
  rfl

theorem setAt_chain {l cs : List Dep} {d : Dep} {s : Finset Point}
    (h : List.IsChain Link (l ++ d :: cs)) (hs : s ⊆ d.idx) :
    List.IsChain Link (setAt (l ++ d :: cs) l.length s) := by
  rw [chain_around] at h
  rw [setAt_eq, chain_around, List.reverse_reverse]
  have hsub : (setIdx d s).Sub d := ⟨rfl, rfl, rfl, hs⟩
  refine ⟨bwd_chain rfl h.1.tail fun c hc => ?_, fwd_chain rfl h.2.tail fun c hc => ?_⟩
  · exact (show Link c d from h.1.rel_head? hc).1.sub hsub
  · exact (h.2.rel_head? hc).2.sub hsub

theorem setAt_sub {l cs : List Dep} {d : Dep} {s : Finset Point} (hs : s ⊆ d.idx) :
    List.Forall₂ Dep.Sub (setAt (l ++ d :: cs) l.length s) (l ++ d :: cs) := by
  rw [setAt_eq]
  refine List.rel_append ?_ (.cons ⟨rfl, rfl, rfl, hs⟩ (fwd_sub _ _))
  have := bwd_sub (setIdx d s) l.reverse
  rw [← List.forall₂_reverse_iff, List.reverse_reverse]
  exact this

theorem setAt_cov {l cs : List Dep} {d : Dep} {s1 s2 : Finset Point} {e : Nat} {p : Point}
    (h : List.IsChain Link (l ++ d :: cs)) (hs : d.idx ⊆ s1 ∪ s2) (hc : Cov e p (l ++ d :: cs)) :
    Cov e p (setAt (l ++ d :: cs) l.length s1) ∨ Cov e p (setAt (l ++ d :: cs) l.length s2) := by
  rw [chain_around] at h
  rw [setAt_eq, setAt_eq]
  simp only [cov_append, cov_cons, cov_reverse] at hc ⊢
  rcases hc with hc | hc | hc
  · rw [← cov_reverse] at hc
    rcases bwd_cov (x1 := setIdx d s1) (x2 := setIdx d s2) h.1 rfl rfl hs rfl rfl hc with h | h
    · exact .inl (.inl h)
    · exact .inr (.inl h)
  · rcases Finset.mem_union.1 (hs hc.2) with h | h
    · exact .inl (.inr (.inl ⟨hc.1, h⟩))
    · exact .inr (.inr (.inl ⟨hc.1, h⟩))
  · rcases fwd_cov (x1 := setIdx d s1) (x2 := setIdx d s2) h.2 rfl rfl hs rfl rfl hc with h | h
    · exact .inl (.inr (.inr h))
    · exact .inr (.inr (.inr h))

end Marco.Cycles
