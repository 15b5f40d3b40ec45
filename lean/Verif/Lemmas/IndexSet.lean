import Verif.Spec.IndexSet
import Verif.Lemmas.BulkLoad
import Verif.Props.C01_Iteration
import Verif.Props.C05_Orders
import Mathlib.Data.List.Sort
import Mathlib.Data.List.Nodup

/-! Helper lemmas on index sets. -/

namespace Marco
open Spec

theorem lexLt_ne {p q : List Int} (h : LexLt p q) : p ≠ q := by
  intro e; subst e; exact Props.lexLt_irrefl _ h

theorem enum_nodup (b : Box) : (Props.enum b).Nodup :=
  (Props.enum_sorted b).imp lexLt_ne

theorem inL_nil (p : Point) : ¬ InL p [] := by simp [InL]

theorem inL_cons (p : Point) (b : Box) (l : List Box) : InL p (b :: l) ↔ InB p b ∨ InL p l := by
  simp [InL]

theorem inL_append (p : Point) (l m : List Box) : InL p (l ++ m) ↔ InL p l ∨ InL p m := by
  simp only [InL, List.mem_append, or_and_right, exists_or]

theorem inL_perm {l m : List Box} (h : l.Perm m) (p : Point) : InL p l ↔ InL p m := by
  simp only [InL, h.mem_iff]

theorem inL_flatMap {α : Type} (p : Point) (l : List α) (f : α → List Box) :
    InL p (l.flatMap f) ↔ ∃ a ∈ l, InL p (f a) := by
  simp only [InL, List.mem_flatMap]
  constructor
  · rintro ⟨b, ⟨a, ha, hb⟩, hp⟩; exact ⟨a, ha, b, hb, hp⟩
  · rintro ⟨a, ha, b, hb, hp⟩; exact ⟨b, ⟨a, ha, hb⟩, hp⟩

/-- All the points of a list of boxes, range by range. -/
def enumL (l : List Box) : List Point := l.flatMap Props.enum

theorem mem_enumL {l : List Box} {p : Point} : p ∈ enumL l ↔ InL p l := by
  simp [enumL, InL, Props.mem_enum]

theorem enumL_length (l : List Box) : (enumL l).length = IndexSet.totalSize l := by
  induction l with
  | nil => simp [enumL, IndexSet.totalSize]
  | cons a as ih =>
    simp only [enumL, List.flatMap_cons, List.length_append, IndexSet.totalSize, List.map_cons,
      List.sum_cons, Props.enum_length] at *
    omega

theorem enumL_nodup {l : List Box} (h : DisjL l) : (enumL l).Nodup := by
  induction l with
  | nil => simp [enumL]
  | cons a as ih =>
    unfold DisjL at h
    rw [List.pairwise_cons] at h
    simp only [enumL, List.flatMap_cons]
    rw [List.nodup_append]
    refine ⟨enum_nodup a, ih h.2, ?_⟩
    intro p hp q hq hpq
    subst hpq
    obtain ⟨b, hb, hpb⟩ := mem_enumL.1 (show p ∈ enumL as from hq)
    exact h.1 b hb p ⟨Props.mem_enum.1 hp, hpb⟩

theorem disj_symm {a b : Box} (h : Disj a b) : Disj b a := fun p hp => h p ⟨hp.2, hp.1⟩

theorem disjL_perm {l m : List Box} (h : l.Perm m) : DisjL l ↔ DisjL m :=
  h.pairwise_iff (fun h => disj_symm h)

theorem count_unique {P : Point → Prop} {n m : Nat} (h1 : CountIs P n) (h2 : CountIs P m) :
    n = m := by
  obtain ⟨l, a1, a2, rfl⟩ := h1
  obtain ⟨l', b1, b2, rfl⟩ := h2
  have : l.Perm l' := (List.perm_ext_iff_of_nodup a1 b1).2 fun p => (a2 p).trans (b2 p).symm
  exact this.length_eq

theorem subset_length {l m : List Point} (hl : l.Nodup) (h : ∀ p ∈ l, p ∈ m) :
    l.length ≤ m.length := (List.subperm_of_subset hl h).length_le

/-- The pieces left by a subtraction have together fewer points, when something is removed. -/
theorem totalSize_subtract {k : Nat} {q o : Box} (hq : Ranked k q) (ho : Ranked k o)
    (hov : o.overlaps q = true) : IndexSet.totalSize (q.subtract o) < q.size := by
  have hr : q.length = o.length := hq.2.trans ho.2.symm
  obtain ⟨_, h2, h3⟩ := Props.C03_subtract_partition q o hq.1 ho.1 hr
  rw [← enumL_length, ← Props.enum_length]
  obtain ⟨p, hp1, hp2⟩ := (RTree.overlaps_iff' ho hq).1 hov
  have hn : (p :: enumL (q.subtract o)).Nodup := by
    rw [List.nodup_cons]
    refine ⟨?_, enumL_nodup h2⟩
    rw [mem_enumL, h3]
    exact fun h => h.2 hp1
  have := subset_length (m := Props.enum q) hn (by
    intro x hx
    rw [Props.mem_enum]
    rcases List.mem_cons.1 hx with rfl | hx
    · exact hp2
    · exact ((h3 x).1 (mem_enumL.1 hx)).1)
  simp only [List.length_cons] at this
  omega

theorem subtract_ranked {k : Nat} {q o : Box} (hq : Ranked k q) (ho : Ranked k o) :
    ∀ d ∈ q.subtract o, Ranked k d := by
  have hr : q.length = o.length := hq.2.trans ho.2.symm
  obtain ⟨h1, _, _⟩ := Props.C03_subtract_partition q o hq.1 ho.1 hr
  intro d hd
  exact ⟨(h1 d hd).1, (h1 d hd).2.trans hq.2⟩

theorem inL_subtract {k : Nat} {q o : Box} (hq : Ranked k q) (ho : Ranked k o) (p : Point) :
    InL p (q.subtract o) ↔ InB p q ∧ ¬ InB p o :=
  (Props.C03_subtract_partition q o hq.1 ho.1 (hq.2.trans ho.2.symm)).2.2 p

theorem disjL_subtract {k : Nat} {q o : Box} (hq : Ranked k q) (ho : Ranked k o) :
    DisjL (q.subtract o) :=
  (Props.C03_subtract_partition q o hq.1 ho.1 (hq.2.trans ho.2.symm)).2.1

theorem ranked_exists {k : Nat} {b : Box} (h : Ranked k b) : ∃ p, InB p b := Box.exists_inB h.1.2

/-- Intersecting overlapping boxes. -/
theorem intersect_spec : ∀ (a b : Box), a.length = b.length → (∀ r ∈ a, r.Valid) →
    (∀ r ∈ b, r.Valid) → Box.overlaps a b = true →
    (Box.intersect a b).length = a.length ∧ (∀ r ∈ Box.intersect a b, r.Valid) ∧
    ∀ p, InB p (Box.intersect a b) ↔ InB p a ∧ InB p b
  | [], [], _, _, _, _ => by simp [Box.intersect]
  | r :: rs, s :: ss, h, ha, hb, hov => by
    obtain ⟨h1, h2⟩ := (Props.overlaps_cons _ _ _ _).1 hov
    obtain ⟨i1, i2, i3⟩ := intersect_spec rs ss (by simpa using h)
      (fun r hr => ha r (by simp [hr])) (fun r hr => hb r (by simp [hr])) h2
    obtain ⟨hv, hI⟩ := Props.C02_intersect r s (ha r (by simp)) (hb s (by simp)) h1
    have e : Box.intersect (r :: rs) (s :: ss) = r.intersect s :: Box.intersect rs ss := rfl
    rw [e]
    refine ⟨by simp [i1], ?_, ?_⟩
    · intro t ht
      rcases List.mem_cons.1 ht with rfl | ht
      · exact hv
      · exact i2 t ht
    · intro p
      cases p with
      | nil => simp [Box.inB_cons]
      | cons x xs =>
        simp only [Box.inB_cons_cons, i3, hI]
        tauto
  | [], _ :: _, h, _, _, _ => by simp at h
  | _ :: _, [], h, _, _, _ => by simp at h

theorem ranked_intersect {k : Nat} {a b : Box} (ha : Ranked k a) (hb : Ranked k b)
    (hov : a.overlaps b = true) :
    Ranked k (a.intersect b) ∧ ∀ p, InB p (a.intersect b) ↔ InB p a ∧ InB p b := by
  obtain ⟨h1, h2, h3⟩ := intersect_spec a b (ha.2.trans hb.2.symm) ha.1.2 hb.1.2 hov
  refine ⟨⟨⟨?_, h2⟩, h1.trans ha.2⟩, h3⟩
  intro h
  rw [h] at h1
  exact ha.1.1 (List.length_eq_zero_iff.1 (by simpa using h1.symm))

theorem RTree.Exact.tight {k : Nat} {n : Node} (h : RTree.Exact k n) : Tight k n := by
  induction n using Node.ind with
  | _ n ih =>
    have hn := AllNodes.self h
    obtain ⟨h1, h2⟩ := h.isMBR
    exact .mk ⟨h.ranked, hn.excl, hn.obs, h1,
      ⟨fun o ho => (RTree.Covers.objects h.covers ho).2, fun b _ hb => h2 b hb⟩⟩
      fun c hc => ih c hc (AllNodes.child h hc)

theorem Spec.Tight.covers {k : Nat} {n : Node} (h : Tight k n) : Covers k n := by
  induction n using Node.ind with
  | _ n ih =>
    have hn := AllNodes.self h
    refine .mk ⟨hn.bd, hn.excl, ?_, ?_⟩ fun c hc => ih c hc (AllNodes.child h hc)
    · intro o ho
      exact ⟨hn.obs o ho, hn.mbr.1 o ((Node.mem_objects hn.excl o).2 (Or.inl ho))⟩
    · intro c hc
      have hcc := AllNodes.self (AllNodes.child h hc)
      refine hcc.mbr.2 n.bd (hn.bd.2.trans hcc.bd.2.symm) fun o ho => ?_
      exact hn.mbr.1 o ((Node.mem_objects hn.excl o).2 (Or.inr ⟨c, hc, ho⟩))

theorem Spec.SetOk.covers {k : Nat} {s : IndexSet} (h : SetOk k s) :
    ∀ n, s.root = some n → Covers k n := fun n hn => (h.tight n hn).covers

namespace IndexSet

theorem sortBoxes_perm (l : List Box) : (sortBoxes l).Perm l := List.perm_insertionSort _ l

/-! #### `setFromRanges` -/

theorem diffStep_spec {k : Nat} {diffs : List Box} {o : Box} (hd : ∀ d ∈ diffs, Ranked k d)
    (ho : Ranked k o) : (∀ d ∈ diffStep diffs o, Ranked k d) ∧
    (∀ p, InL p (diffStep diffs o) ↔ InL p diffs ∧ ¬ InB p o) := by
  have key : ∀ d ∈ diffs, (if d.overlaps o then d.subtract o else [d]) = d.subtract o := by
    intro d _
    by_cases h : d.overlaps o = true
    · simp [h]
    · simp [h, Box.subtract]
  have e : diffStep diffs o = diffs.flatMap fun d => d.subtract o := by
    unfold diffStep
    rw [List.flatMap_def, List.flatMap_def, List.map_congr_left key]
  rw [e]
  constructor
  · intro d hd'
    obtain ⟨a, ha, hd'⟩ := List.mem_flatMap.1 hd'
    exact subtract_ranked (hd a ha) ho d hd'
  · intro p
    rw [inL_flatMap]
    constructor
    · rintro ⟨a, ha, hp⟩
      rw [inL_subtract (hd a ha) ho] at hp
      exact ⟨⟨a, ha, hp.1⟩, hp.2⟩
    · rintro ⟨⟨a, ha, hp⟩, hn⟩
      exact ⟨a, ha, (inL_subtract (hd a ha) ho p).2 ⟨hp, hn⟩⟩

theorem foldl_diffStep {k : Nat} : ∀ (os diffs : List Box), (∀ d ∈ diffs, Ranked k d) →
    (∀ o ∈ os, Ranked k o) → (∀ d ∈ os.foldl diffStep diffs, Ranked k d) ∧
    (∀ p, InL p (os.foldl diffStep diffs) ↔ InL p diffs ∧ ¬ InL p os)
  | [], diffs, hd, _ => by simp [InL]; exact hd
  | o :: os, diffs, hd, ho => by
    obtain ⟨h1, h2⟩ := diffStep_spec hd (ho o (by simp))
    obtain ⟨i1, i2⟩ := foldl_diffStep os (diffStep diffs o) h1 (fun o h => ho o (by simp [h]))
    refine ⟨i1, fun p => ?_⟩
    rw [List.foldl_cons, i2, h2, inL_cons]
    tauto

theorem addSorted_spec {k : Nat} {acc : List Box} {cur : Box} (ha : ∀ d ∈ acc, Ranked k d)
    (hc : Ranked k cur) : (∀ d ∈ addSorted acc cur, Ranked k d) ∧
    (∀ p, InL p (addSorted acc cur) ↔ InL p acc ∨ InB p cur) := by
  unfold addSorted
  split_ifs with h
  · have : acc = [] := by simpa using h
    subst this
    simp [InL, hc]
  · set idx := acc.length - trailing acc cur
    have hdr : ∀ o ∈ acc.drop idx, Ranked k o := fun o ho => ha o (List.mem_of_mem_drop ho)
    obtain ⟨i1, i2⟩ := foldl_diffStep (acc.drop idx) [cur] (by simpa using hc) hdr
    have hp := sortBoxes_perm (acc.drop idx ++ (acc.drop idx).foldl diffStep [cur])
    constructor
    · intro d hd
      rcases List.mem_append.1 hd with hd | hd
      · exact ha d (List.mem_of_mem_take hd)
      · rcases List.mem_append.1 (hp.mem_iff.1 hd) with hd | hd
        · exact hdr d hd
        · exact i1 d hd
    · intro p
      rw [inL_append, inL_perm hp, inL_append, i2]
      have e : InL p acc ↔ InL p (acc.take idx) ∨ InL p (acc.drop idx) := by
        rw [← inL_append, List.take_append_drop]
      have e1 : InL p [cur] ↔ InB p cur := by simp [InL]
      rw [e, e1]
      tauto

theorem foldl_addSorted {k : Nat} : ∀ (rs acc : List Box), (∀ d ∈ acc, Ranked k d) →
    (∀ d ∈ rs, Ranked k d) → (∀ d ∈ rs.foldl addSorted acc, Ranked k d) ∧
    (∀ p, InL p (rs.foldl addSorted acc) ↔ InL p acc ∨ InL p rs)
  | [], acc, ha, _ => by simp [InL]; exact ha
  | r :: rs, acc, ha, hr => by
    obtain ⟨h1, h2⟩ := addSorted_spec ha (hr r (by simp))
    obtain ⟨i1, i2⟩ := foldl_addSorted rs (addSorted acc r) h1 (fun d hd => hr d (by simp [hd]))
    refine ⟨i1, fun p => ?_⟩
    rw [List.foldl_cons, i2, h2, inL_cons]
    tauto

theorem nonOverlapping_spec {k : Nat} {rs : List Box} (hr : ∀ r ∈ rs, Ranked k r) :
    (∀ d ∈ nonOverlapping rs, Ranked k d) ∧ (∀ p, InL p (nonOverlapping rs) ↔ InL p rs) := by
  have hp := sortBoxes_perm rs
  obtain ⟨h1, h2⟩ := foldl_addSorted (k := k) (sortBoxes rs) [] (by simp)
    (fun d hd => hr d (hp.mem_iff.1 hd))
  refine ⟨h1, fun p => ?_⟩
  unfold nonOverlapping
  rw [h2, inL_perm hp]
  simp [InL]

/-- Construction from ranges: well formed, and containing exactly the given points. -/
theorem ofRanges_spec {k : Nat} {rs : List Box} (hr : ∀ r ∈ rs, Ranked k r) :
    SetOk k (ofRanges rs) ∧ (ofRanges rs).ranges.Perm (nonOverlapping rs) ∧
    (∀ p, Has (ofRanges rs) p ↔ InL p rs) ∧
    (∀ n, (ofRanges rs).root = some n → RTree.Exact k n) := by
  obtain ⟨h1, h2⟩ := nonOverlapping_spec hr
  unfold ofRanges
  cases hn : nonOverlapping rs with
  | nil =>
    refine ⟨⟨by simp [empty], by simp [empty]⟩, by simp [ranges, empty], ?_, by simp [empty]⟩
    intro p
    rw [← h2, hn]
    simp [Has, ranges, empty]
  | cons b bs =>
    rw [hn] at h1
    obtain ⟨next, n, d, i1, i2, i3, _⟩ := RTree.setFromObjects_spec (k := k) (mn := minElements)
      (mx := maxElements) (by decide) (by decide) (by decide) (objs := b :: bs) (by simp) h1
    simp only [i1]
    refine ⟨⟨?_, ?_⟩, by simpa [ranges] using i3, ?_, ?_⟩
    · intro m hm
      simp only [Option.some.injEq] at hm
      subst hm
      exact i2.tight
    · intro _; exact (h1 b (by simp)).2
    · intro p
      rw [← h2, hn]
      simp only [Has, ranges]
      exact inL_perm i3 p
    · intro m hm
      simp only [Option.some.injEq] at hm
      subst hm
      exact i2

theorem ofRanges_root {rs : List Box} {k : Nat} (hr : ∀ r ∈ rs, Ranked k r) :
    (ofRanges rs).root = none ↔ rs = [] := by
  obtain ⟨h1, _, h3, _⟩ := ofRanges_spec hr
  constructor
  · intro h
    cases rs with
    | nil => rfl
    | cons r rs =>
      exfalso
      obtain ⟨p, hp⟩ := ranked_exists (hr r (by simp))
      have := (h3 p).2 ((inL_cons _ _ _).2 (Or.inl hp))
      simp [Has, ranges, h, InL] at this
  · rintro rfl; rfl

/-! #### Queries -/

theorem ranges_ranked {k : Nat} {s : IndexSet} (h : SetOk k s) : ∀ r ∈ s.ranges, Ranked k r := by
  intro r hr
  unfold ranges at hr
  cases hs : s.root with
  | none => simp [hs] at hr
  | some n =>
    rw [hs] at hr
    exact (RTree.Covers.objects (h.covers n hs) hr).1

theorem ranges_none {s : IndexSet} (h : s.root = none) : s.ranges = [] := by simp [ranges, h]
theorem ranges_some {s : IndexSet} {n : Node} (h : s.root = some n) : s.ranges = n.objects := by
  simp [ranges, h]

theorem ranges_eq_nil_iff {s : IndexSet} {k : Nat} (hs : SetOk k s) :
    s.ranges = [] ↔ s.root = none := by
  constructor
  · intro h
    cases hr : s.root with
    | none => rfl
    | some n => 
      rw [ranges_some hr] at h
      exact absurd h (AllNodes.self (hs.tight n hr)).nonempty
  · exact ranges_none

theorem overlapsBox_iff {k : Nat} {s : IndexSet} {q : Box} (h : SetOk k s) (hq : Ranked k q) :
    s.overlapsBox q = true ↔ ∃ p, Has s p ∧ InB p q := by
  unfold overlapsBox Has
  cases hs : s.root with
  | none => simp [ranges_none hs, InL]
  | some n =>
    have hn := h.covers n hs
    rw [ranges_some hs]
    simp only [Bool.not_eq_true', List.isEmpty_eq_false_iff]
    constructor
    · intro hne
      obtain ⟨o, ho⟩ := List.exists_mem_of_ne_nil _ hne
      rw [RTree.mem_visit hq hn] at ho
      obtain ⟨p, hp1, hp2⟩ := (RTree.overlaps_iff' (RTree.Covers.objects hn ho.1).1 hq).1 ho.2
      exact ⟨p, ⟨o, ho.1, hp1⟩, hp2⟩
    · rintro ⟨p, ⟨o, ho, hp1⟩, hp2⟩
      have : o ∈ RTree.visit q n := (RTree.mem_visit hq hn o).2
        ⟨ho, (RTree.overlaps_iff' (RTree.Covers.objects hn ho).1 hq).2 ⟨p, hp1, hp2⟩⟩
      exact List.ne_nil_of_mem this

theorem overlapsSet_iff {k : Nat} {s t : IndexSet} (h : SetOk k s) (ht : SetOk k t) :
    s.overlapsSet t = true ↔ ∃ p, Has s p ∧ Has t p := by
  unfold overlapsSet Has
  cases hs : s.root with
  | none => simp [ranges_none hs, InL]
  | some l =>
    cases htr : t.root with
    | none => simp [ranges_none htr, InL]
    | some r =>
      have hl := h.covers l hs
      have hr := ht.covers r htr
      rw [ranges_some hs, ranges_some htr]
      simp only [Bool.not_eq_true', List.isEmpty_eq_false_iff]
      constructor
      · intro hne
        obtain ⟨⟨a, b⟩, ho⟩ := List.exists_mem_of_ne_nil _ hne
        rw [RTree.mem_visitPairs hl hr] at ho
        obtain ⟨p, hp1, hp2⟩ := (RTree.overlaps_iff' (RTree.Covers.objects hl ho.1).1
          (RTree.Covers.objects hr ho.2.1).1).1 ho.2.2
        exact ⟨p, ⟨a, ho.1, hp1⟩, ⟨b, ho.2.1, hp2⟩⟩
      · rintro ⟨p, ⟨a, ha, hp1⟩, ⟨b, hb, hp2⟩⟩
        have : (a, b) ∈ RTree.visitPairs l r := (RTree.mem_visitPairs hl hr a b).2
          ⟨ha, hb, (RTree.overlaps_iff' (RTree.Covers.objects hl ha).1
            (RTree.Covers.objects hr hb).1).2 ⟨p, hp1, hp2⟩⟩
        exact List.ne_nil_of_mem this

theorem totalSize_append (a b : List Box) : totalSize (a ++ b) = totalSize a + totalSize b := by
  simp [totalSize]

theorem totalSize_cons (a : Box) (b : List Box) : totalSize (a :: b) = a.size + totalSize b := by
  simp [totalSize]

/-- The queue loop of `contains(box)` ends with an empty queue exactly when everything in the
queue is covered by stored objects. -/
theorem containsLoop_spec {k : Nat} {n : Node} (hn : Covers k n) :
    ∀ (fuel : Nat) (qs : List Box), totalSize qs < fuel → (∀ q ∈ qs, Ranked k q) →
    (containsLoop n fuel qs = [] ↔ ∀ p, InL p qs → InL p n.objects)
  | 0, qs, hf, _ => by omega
  | fuel + 1, [], hf, _ => by simp [containsLoop, InL]
  | fuel + 1, q :: qs, hf, hq => by
    have hq1 := hq q (by simp)
    rw [containsLoop]
    cases hv : RTree.visit q n with
    | nil =>
      simp only [List.cons_ne_nil, false_iff, not_forall]
      obtain ⟨p, hp⟩ := ranked_exists hq1
      refine ⟨p, (inL_cons _ _ _).2 (Or.inl hp), ?_⟩
      rintro ⟨o, ho, hpo⟩
      have : o ∈ RTree.visit q n := (RTree.mem_visit hq1 hn o).2
        ⟨ho, (RTree.overlaps_iff' (RTree.Covers.objects hn ho).1 hq1).2 ⟨p, hpo, hp⟩⟩
      rw [hv] at this
      simp at this
    | cons o os =>
      have ho : o ∈ RTree.visit q n := by rw [hv]; simp
      rw [RTree.mem_visit hq1 hn] at ho
      have hor := (RTree.Covers.objects hn ho.1).1
      have hts := totalSize_subtract hq1 hor ho.2
      simp only
      rw [containsLoop_spec hn fuel]
      · constructor
        · intro h p hp
          rw [inL_cons] at hp
          by_cases hpo : InB p o
          · exact ⟨o, ho.1, hpo⟩
          · apply h
            rw [inL_append, inL_subtract hq1 hor]
            tauto
        · intro h p hp
          rw [inL_append, inL_subtract hq1 hor] at hp
          apply h
          rw [inL_cons]
          tauto
      · rw [totalSize_append]
        rw [totalSize_cons] at hf
        omega
      · intro d hd
        rcases List.mem_append.1 hd with hd | hd
        · exact hq d (by simp [hd])
        · exact subtract_ranked hq1 hor d hd

theorem containsBox_iff {k : Nat} {s : IndexSet} {q : Box} (h : SetOk k s) (hq : Ranked k q) :
    s.containsBox q = true ↔ ∀ p, InB p q → Has s p := by
  unfold containsBox Has
  cases hs : s.root with
  | none =>
    obtain ⟨p, hp⟩ := ranked_exists hq
    simp only [Bool.false_eq_true, false_iff, not_forall]
    exact ⟨p, hp, by simp [ranges_none hs, InL]⟩
  | some n =>
    simp only [List.isEmpty_iff]
    rw [containsLoop_spec (h.covers n hs) _ _ (by omega) (by simpa using hq), ranges_some hs]
    simp [InL]

theorem ofPoint_ranked {k : Nat} {p : Point} (hp : p.length = k) (hk : 0 < k) :
    Ranked k (Box.ofPoint p) := by
  refine ⟨⟨?_, ?_⟩, by simp [Box.ofPoint, hp]⟩
  · intro h
    have : p = [] := by simpa [Box.ofPoint] using h
    subst this
    simp at hp; omega
  · intro r hr
    simp only [Box.ofPoint, List.mem_map] at hr
    obtain ⟨x, _, rfl⟩ := hr
    unfold Range.Valid; simp

theorem inB_ofPoint (p q : Point) : InB q (Box.ofPoint p) ↔ q = p := by
  induction p generalizing q with
  | nil => simp [Box.ofPoint, Box.inB_nil]
  | cons x xs ih =>
    have e : Box.ofPoint (x :: xs) = ⟨x, x + 1⟩ :: Box.ofPoint xs := rfl
    rw [e, Box.inB_cons]
    constructor
    · rintro ⟨y, ys, rfl, h1, h2⟩
      rw [ih] at h2
      have : y = x := by unfold InR at h1; simp only at h1; omega
      rw [this, h2]
    · rintro rfl
      exact ⟨x, xs, rfl, by unfold InR; simp, (ih xs).2 rfl⟩

theorem containsPoint_iff {k : Nat} {s : IndexSet} {p : Point} (h : SetOk k s)
    (hp : p.length = k) (hk : 0 < k) : s.containsPoint p = true ↔ Has s p := by
  unfold containsPoint
  rw [containsBox_iff h (ofPoint_ranked hp hk)]
  simp [inB_ofPoint]

/-! #### `contains(set)` -/

theorem foldl_subtract {k : Nat} : ∀ (ls rem : List Box), (∀ d ∈ rem, Ranked k d) →
    (∀ o ∈ ls, Ranked k o) →
    (∀ d ∈ ls.foldl (fun rem l => rem.flatMap fun r => r.subtract l) rem, Ranked k d) ∧
    (∀ p, InL p (ls.foldl (fun rem l => rem.flatMap fun r => r.subtract l) rem) ↔
      InL p rem ∧ ¬ InL p ls)
  | [], rem, hd, _ => by simp [InL]; exact hd
  | o :: os, rem, hd, ho => by
    have h1 : ∀ d ∈ rem.flatMap fun r => r.subtract o, Ranked k d := by
      intro d hd'
      obtain ⟨a, ha, hd'⟩ := List.mem_flatMap.1 hd'
      exact subtract_ranked (hd a ha) (ho o (by simp)) d hd'
    obtain ⟨i1, i2⟩ := foldl_subtract os _ h1 (fun o h => ho o (by simp [h]))
    refine ⟨i1, fun p => ?_⟩
    rw [List.foldl_cons, i2, inL_cons, inL_flatMap]
    constructor
    · rintro ⟨⟨a, ha, hp⟩, hn⟩
      rw [inL_subtract (hd a ha) (ho o (by simp))] at hp
      exact ⟨⟨a, ha, hp.1⟩, by tauto⟩
    · rintro ⟨⟨a, ha, hp⟩, hn⟩
      exact ⟨⟨a, ha, (inL_subtract (hd a ha) (ho o (by simp)) p).2 ⟨hp, by tauto⟩⟩, by tauto⟩

theorem eq_nil_of_ranked {k : Nat} {l : List Box} (h : ∀ d ∈ l, Ranked k d) :
    l = [] ↔ ∀ p, ¬ InL p l := by
  constructor
  · rintro rfl; exact inL_nil
  · intro hp
    cases l with
    | nil => rfl
    | cons a as =>
      obtain ⟨p, hpa⟩ := ranked_exists (h a (by simp))
      exact absurd ((inL_cons _ _ _).2 (Or.inl hpa)) (hp p)

/-- Some node of the list has an object containing the point. -/
def UnderL (p : Point) (l : List Node) : Prop := ∃ n ∈ l, InL p n.objects

theorem leafCovered_iff {k : Nat} {objs : List Box} {lhs : List Node}
    (ho : ∀ o ∈ objs, Ranked k o) (hl : ∀ l ∈ lhs, Covers k l ∧ l.ch = []) :
    leafCovered objs lhs = true ↔ ∀ p, InL p objs → UnderL p lhs := by
  unfold leafCovered
  have hL : ∀ o ∈ lhs.flatMap Node.obs, Ranked k o := by
    intro o ho
    obtain ⟨l, hl1, ho⟩ := List.mem_flatMap.1 ho
    exact ((AllNodes.self (hl l hl1).1).obs o ho).1
  have hU : ∀ p, InL p (lhs.flatMap Node.obs) ↔ UnderL p lhs := by
    intro p
    rw [inL_flatMap]
    unfold UnderL
    constructor
    · rintro ⟨l, h1, h2⟩; exact ⟨l, h1, by rwa [Node.objects_leaf (hl l h1).2]⟩
    · rintro ⟨l, h1, h2⟩; exact ⟨l, h1, by rwa [Node.objects_leaf (hl l h1).2] at h2⟩
  simp only [List.all_eq_true, List.isEmpty_iff]
  constructor
  · rintro h p ⟨o, ho1, hp⟩
    obtain ⟨i1, i2⟩ := foldl_subtract (lhs.flatMap Node.obs) [o] (by simpa using ho o ho1) hL
    have := (eq_nil_of_ranked i1).1 (h o ho1) p
    rw [i2] at this
    by_contra hc
    exact this ⟨(inL_cons _ _ _).2 (Or.inl hp), fun h => hc ((hU p).1 h)⟩
  · intro h o ho1
    obtain ⟨i1, i2⟩ := foldl_subtract (lhs.flatMap Node.obs) [o] (by simpa using ho o ho1) hL
    rw [eq_nil_of_ranked i1]
    intro p hp
    rw [i2] at hp
    have hpo : InB p o := by simpa [InL] using hp.1
    exact hp.2 ((hU p).2 (h p ⟨o, ho1, hpo⟩))

theorem weight_child {n c : Node} (h : c ∈ n.ch) : c.weight < n.weight := by
  rw [Node.weight_eq n]
  have : ∀ l : List Node, c ∈ l → c.weight ≤ Node.weightL l := by
    intro l
    induction l with
    | nil => simp
    | cons a as ih =>
      intro hm
      simp only [Node.weightL]
      rcases List.mem_cons.1 hm with rfl | hm
      · omega
      · have := ih hm; omega
  have := this _ h
  omega

theorem underL_descend {k : Nat} {b : Box} (hb : Ranked k b) {lhs : List Node}
    (hl : ∀ l ∈ lhs, Covers k l) {p : Point} (hp : InB p b) :
    UnderL p (descend b lhs) ↔ UnderL p lhs := by
  unfold UnderL descend
  constructor
  · rintro ⟨m, hm, hpm⟩
    obtain ⟨l, h1, h2⟩ := List.mem_flatMap.1 hm
    split_ifs at h2 with hleaf
    · have : m = l := by simpa using h2
      subst this
      exact ⟨m, h1, hpm⟩
    · have h3 := (List.mem_filter.1 h2).1
      obtain ⟨o, ho1, ho2⟩ := hpm
      exact ⟨l, h1, o, (Node.mem_objects (AllNodes.self (hl l h1)).excl o).2
        (Or.inr ⟨m, h3, ho1⟩), ho2⟩
  · rintro ⟨l, h1, o, ho, hpo⟩
    by_cases hleaf : l.isLeaf = true
    · refine ⟨l, List.mem_flatMap.2 ⟨l, h1, ?_⟩, o, ho, hpo⟩
      rw [if_pos hleaf]; simp
    · have hne : l.ch ≠ [] := by simpa [Node.isLeaf] using hleaf
      rw [Node.objects_inner hne, Node.mem_objectsL] at ho
      obtain ⟨c, hc, ho⟩ := ho
      refine ⟨c, List.mem_flatMap.2 ⟨l, h1, ?_⟩, o, ho, hpo⟩
      rw [if_neg hleaf, List.mem_filter]
      have hcc := AllNodes.child (hl l h1) hc
      exact ⟨hc, (RTree.overlaps_iff' (AllNodes.self hcc).bd hb).2
        ⟨p, (RTree.Covers.objects hcc ho).2 p hpo, hp⟩⟩

theorem leafLoop_iff {k : Nat} {rhs : Node} (hr : Covers k rhs) (hrl : rhs.ch = []) :
    ∀ (fuel : Nat) (lhs : List Node), (∀ l ∈ lhs, Covers k l ∧ l.weight ≤ fuel + 1) →
    (leafLoop rhs fuel lhs = true ↔ ∀ p, InL p rhs.obs → UnderL p lhs)
  | 0, lhs, hl => by
    rw [leafLoop]
    refine leafCovered_iff (fun o ho => ((AllNodes.self hr).obs o ho).1) fun l h => ⟨(hl l h).1, ?_⟩
    by_contra hne
    obtain ⟨c, hc⟩ := List.exists_mem_of_ne_nil _ hne
    have := weight_child hc
    have := c.weight_pos
    have := (hl l h).2
    omega
  | fuel + 1, lhs, hl => by
    rw [leafLoop]
    split_ifs with hany
    · rw [leafLoop_iff hr hrl fuel]
      · constructor
        · intro h p hp
          obtain ⟨o, ho, hpo⟩ := id hp
          exact (underL_descend (AllNodes.self hr).bd (fun l h => (hl l h).1)
            (((AllNodes.self hr).obs o ho).2 p hpo)).1 (h p hp)
        · intro h p hp
          obtain ⟨o, ho, hpo⟩ := id hp
          exact (underL_descend (AllNodes.self hr).bd (fun l h => (hl l h).1)
            (((AllNodes.self hr).obs o ho).2 p hpo)).2 (h p hp)
      · intro m hm
        obtain ⟨l, h1, h2⟩ := List.mem_flatMap.1 hm
        split_ifs at h2 with hleaf
        · have : m = l := by simpa using h2
          subst this
          refine ⟨(hl m h1).1, ?_⟩
          have : m.ch = [] := by simpa [Node.isLeaf] using hleaf
          rw [Node.weight_eq, this]; simp [Node.weightL]
        · have h3 := (List.mem_filter.1 h2).1
          have := weight_child h3
          have := (hl l h1).2
          exact ⟨AllNodes.child (hl l h1).1 h3, by omega⟩
    · refine leafCovered_iff (fun o ho => ((AllNodes.self hr).obs o ho).1)
        fun l h => ⟨(hl l h).1, ?_⟩
      simp only [List.any_eq_true, Bool.not_eq_true', not_exists, not_and, Bool.not_eq_false] at hany
      simpa [Node.isLeaf] using hany l h

theorem keepOverlapping_spec {k : Nat} {b : Box} (hb : Ranked k b) {lhs : List Node}
    (hl : ∀ l ∈ lhs, Covers k l) :
    (∀ l ∈ keepOverlapping b lhs, l ∈ lhs) ∧
    ∀ p, InB p b → (UnderL p (keepOverlapping b lhs) ↔ UnderL p lhs) := by
  have hsub : ∀ l ∈ keepOverlapping b lhs, l ∈ lhs := by
    intro m hm
    obtain ⟨l, h1, h2⟩ := List.mem_flatMap.1 hm
    split_ifs at h2
    · have : m = l := by simpa using h2
      rwa [this]
    · simp at h2
    · obtain ⟨_, _, rfl⟩ := List.mem_map.1 h2
      exact h1
  refine ⟨hsub, fun p hp => ⟨?_, ?_⟩⟩
  · rintro ⟨l, h1, h2⟩; exact ⟨l, hsub l h1, h2⟩
  · rintro ⟨l, h1, o, ho, hpo⟩
    refine ⟨l, List.mem_flatMap.2 ⟨l, h1, ?_⟩, o, ho, hpo⟩
    have hlc := hl l h1
    by_cases hleaf : l.isLeaf = true
    · rw [if_pos hleaf, if_pos]
      · simp
      · exact (RTree.overlaps_iff' (AllNodes.self hlc).bd hb).2
          ⟨p, (RTree.Covers.objects hlc ho).2 p hpo, hp⟩
    · rw [if_neg hleaf]
      have hne : l.ch ≠ [] := by simpa [Node.isLeaf] using hleaf
      rw [Node.objects_inner hne, Node.mem_objectsL] at ho
      obtain ⟨c, hc, ho⟩ := ho
      have hcc := AllNodes.child hlc hc
      refine List.mem_map.2 ⟨c, List.mem_filter.2 ⟨hc, ?_⟩, rfl⟩
      exact (RTree.overlaps_iff' (AllNodes.self hcc).bd hb).2
        ⟨p, (RTree.Covers.objects hcc ho).2 p hpo, hp⟩

theorem pairLoop_eq (depth : Nat) (n : Node) (lhs : List Node) :
    pairLoop depth n lhs = if n.ch = [] then leafLoop n depth lhs else pairLoopL depth n.ch lhs := by
  cases n with
  | mk i b ch obs =>
    cases ch with
    | nil => simp [pairLoop, Node.ch]
    | cons c cs => simp [pairLoop, Node.ch]

theorem pairLoopL_iff (depth : Nat) (cs : List Node) (lhs : List Node) :
    pairLoopL depth cs lhs = true ↔ ∀ c ∈ cs, keepOverlapping c.bd lhs ≠ [] ∧
      pairLoop depth c (keepOverlapping c.bd lhs) = true := by
  induction cs with
  | nil => simp [pairLoopL]
  | cons c cs ih =>
    simp only [pairLoopL, Bool.and_eq_true, Bool.not_eq_true', List.isEmpty_eq_false_iff,
      List.mem_cons, forall_eq_or_imp, ih, ne_eq]

theorem pairLoop_iff {k : Nat} (depth : Nat) (rhs : Node) (hr : Tight k rhs) :
    ∀ lhs : List Node, (∀ l ∈ lhs, Covers k l ∧ l.weight ≤ depth + 1) →
    (pairLoop depth rhs lhs = true ↔ ∀ p, InL p rhs.objects → UnderL p lhs) := by
  induction rhs using Node.ind with
  | _ n ih =>
    intro lhs hl
    have hn := AllNodes.self hr
    rw [pairLoop_eq]
    split_ifs with hch
    · rw [leafLoop_iff hr.covers hch depth lhs hl, Node.objects_leaf hch]
    · rw [pairLoopL_iff]
      have step : ∀ c ∈ n.ch, (keepOverlapping c.bd lhs ≠ [] ∧
          pairLoop depth c (keepOverlapping c.bd lhs) = true ↔
          ∀ p, InL p c.objects → UnderL p lhs) := by
        intro c hc
        have hcT := AllNodes.child hr hc
        have hcn := AllNodes.self hcT
        obtain ⟨k1, k2⟩ := keepOverlapping_spec hcn.bd (fun l h => (hl l h).1)
        rw [ih c hc hcT _ fun l h => hl l (k1 l h)]
        have hin : ∀ p, InL p c.objects → InB p c.bd := by
          rintro p ⟨o, ho, hp⟩
          exact hcn.mbr.1 o ho p hp
        constructor
        · rintro ⟨_, h⟩ p hp
          exact (k2 p (hin p hp)).1 (h p hp)
        · intro h
          refine ⟨?_, fun p hp => (k2 p (hin p hp)).2 (h p hp)⟩
          obtain ⟨o, ho⟩ := List.exists_mem_of_ne_nil _ hcn.nonempty
          obtain ⟨p, hp⟩ := ranked_exists (RTree.Covers.objects (Tight.covers hcT) ho).1
          obtain ⟨l, hl1, _⟩ := (k2 p (hin p ⟨o, ho, hp⟩)).2 (h p ⟨o, ho, hp⟩)
          exact List.ne_nil_of_mem hl1
      constructor
      · rintro h p ⟨o, ho, hp⟩
        rw [Node.objects_inner hch, Node.mem_objectsL] at ho
        obtain ⟨c, hc, ho⟩ := ho
        exact (step c hc).1 (h c hc) p ⟨o, ho, hp⟩
      · intro h c hc
        rw [step c hc]
        rintro p ⟨o, ho, hp⟩
        refine h p ⟨o, ?_, hp⟩
        rw [Node.objects_inner hch, Node.mem_objectsL]
        exact ⟨c, hc, ho⟩

theorem size_eq (s : IndexSet) : s.size = totalSize s.ranges := by
  unfold size totalSize
  have : ∀ (l : List Box) (a : Nat), l.foldl (fun acc r => acc + r.size) a = a + (l.map Box.size).sum := by
    intro l
    induction l with
    | nil => simp
    | cons b bs ih => intro a; rw [List.foldl_cons, ih]; simp; omega
  rw [this]; simp

/-- `contains(set)` is exact when the stored ranges of the argument are disjoint. -/
theorem containsSet_iff {k : Nat} {s t : IndexSet} (hs : SetOk k s) (ht : SetOk k t)
    (hd : DisjL t.ranges) : s.containsSet t = true ↔ ∀ p, Has t p → Has s p := by
  unfold containsSet
  cases htr : t.root with
  | none => simp [Has, ranges_none htr, InL]
  | some r =>
    have hrT := ht.tight r htr
    have hr := AllNodes.self hrT
    obtain ⟨o, ho⟩ := List.exists_mem_of_ne_nil _ hr.nonempty
    obtain ⟨p0, hp0⟩ := ranked_exists (RTree.Covers.objects hrT.covers ho).1
    cases hsr : s.root with
    | none =>
      simp only [Bool.false_eq_true, false_iff, not_forall]
      refine ⟨p0, ?_, ?_⟩
      · rw [Has, ranges_some htr]; exact ⟨o, ho, hp0⟩
      · simp [Has, ranges_none hsr, InL]
    | some l =>
      have hlT := hs.tight l hsr
      have hl := AllNodes.self hlT
      simp only
      split_ifs with h1 h2
      · simp only [false_iff]
        intro h
        rw [size_eq, size_eq, ← enumL_length, ← enumL_length] at h1
        have := subset_length (enumL_nodup hd) (m := enumL s.ranges)
          (fun p hp => mem_enumL.2 (h p (mem_enumL.1 hp)))
        omega
      · simp only [false_iff]
        intro h
        rw [Bool.not_eq_true', ← Bool.not_eq_true] at h2
        apply h2
        rw [Marco.containsBox_iff _ _ (hl.bd.2.trans hr.bd.2.symm) hr.bd.1.2]
        refine hr.mbr.2 l.bd (hl.bd.2.trans hr.bd.2.symm) fun o ho p hp => ?_
        have : Has s p := h p (by rw [Has, ranges_some htr]; exact ⟨o, ho, hp⟩)
        rw [Has, ranges_some hsr] at this
        obtain ⟨o', ho', hp'⟩ := this
        exact hl.mbr.1 o' ho' p hp'
      · rw [pairLoop_iff l.weight r hrT [l] (by simpa using hlT.covers)]
        simp [Has, ranges_some htr, ranges_some hsr, UnderL]

/-! #### `operator==` -/

theorem nodesWithin_iff {b : Box} {k : Nat} (hb : b.length = k) (n : Node) (hn : Tight k n) :
    nodesWithin b n = true ↔ SubB n.bd b := by
  have main : ∀ n, Tight k n → SubB n.bd b → nodesWithin b n = true := by
    intro n
    induction n using Node.ind with
    | _ n ih =>
      intro hn hs
      have h1 := AllNodes.self hn
      have hcov := AllNodes.self hn.covers
      cases n with
      | mk i bd ch obs =>
        rw [nodesWithin, Bool.and_eq_true]
        refine ⟨(Marco.containsBox_iff b bd (hb.trans h1.bd.2.symm) h1.bd.1.2).2 hs, ?_⟩
        have : ∀ l : List Node, (∀ c ∈ l, nodesWithin b c = true) → nodesWithinL b l = true := by
          intro l
          induction l with
          | nil => simp [nodesWithinL]
          | cons c cs ih =>
            intro h
            rw [nodesWithinL, h c (by simp), ih fun c hc => h c (by simp [hc])]; rfl
        exact this ch fun c hc => ih c hc (AllNodes.child hn hc)
          (subB_trans (hcov.ch c hc) hs)
  refine ⟨fun h => ?_, main n hn⟩
  have h1 := AllNodes.self hn
  cases n with
  | mk i bd ch obs =>
    rw [nodesWithin, Bool.and_eq_true] at h
    exact (Marco.containsBox_iff b bd (hb.trans h1.bd.2.symm) h1.bd.1.2).1 h.1

theorem containsTree_iff {k : Nat} {s t : IndexSet} (hs : SetOk k s) (ht : SetOk k t) :
    s.containsTree t = true ↔ ∀ p, Has t p → Has s p := by
  unfold containsTree
  cases htr : t.root with
  | none => simp [Has, ranges_none htr, InL]
  | some r =>
    have hrT := ht.tight r htr
    have hr := AllNodes.self hrT
    have hrr : ∀ o ∈ r.objects, Ranked k o := fun o ho => (RTree.Covers.objects hrT.covers ho).1
    have hH : ∀ p, Has t p ↔ InL p r.objects := fun p => by rw [Has, ranges_some htr]
    cases hsr : s.root with
    | none =>
      simp only [Bool.false_eq_true, false_iff, not_forall]
      obtain ⟨o, ho⟩ := List.exists_mem_of_ne_nil _ hr.nonempty
      obtain ⟨p0, hp0⟩ := ranked_exists (hrr o ho)
      refine ⟨p0, (hH p0).2 ⟨o, ho, hp0⟩, ?_⟩
      simp [Has, ranges_none hsr, InL]
    | some l =>
      have hlT := hs.tight l hsr
      have hl := AllNodes.self hlT
      simp only [Bool.and_eq_true, List.all_eq_true]
      rw [nodesWithin_iff hl.bd.2 r hrT]
      constructor
      · rintro ⟨_, h⟩ p hp
        obtain ⟨o, ho, hpo⟩ := (hH p).1 hp
        exact (containsBox_iff hs (hrr o ho)).1 (h o ho) p hpo
      · intro h
        refine ⟨?_, fun o ho => (containsBox_iff hs (hrr o ho)).2
          fun p hp => h p ((hH p).2 ⟨o, ho, hp⟩)⟩
        refine hr.mbr.2 l.bd (hl.bd.2.trans hr.bd.2.symm) fun o ho p hp => ?_
        have := h p ((hH p).2 ⟨o, ho, hp⟩)
        rw [Has, ranges_some hsr] at this
        obtain ⟨o', ho', hp'⟩ := this
        exact hl.mbr.1 o' ho' p hp'

end IndexSet
end Marco
