import Verif.Lemmas.IndexSet
import Verif.Props.C04_Merge

/-! Helper lemmas on the set operations: complement, merging, compaction. -/

namespace Marco
open Spec
namespace IndexSet

theorem disjL_append {a b : List Box} : DisjL (a ++ b) ↔
    DisjL a ∧ DisjL b ∧ ∀ x ∈ a, ∀ y ∈ b, Disj x y := by
  unfold DisjL
  rw [List.pairwise_append]

theorem disj_iff_forall_inL {x : Box} {l : List Box} : (∀ y ∈ l, Disj x y) ↔
    ∀ p, InB p x → ¬ InL p l := by
  constructor
  · rintro h p hp ⟨y, hy, hpy⟩
    exact h y hy p ⟨hp, hpy⟩
  · intro h y hy p hp
    exact h p hp.1 ⟨y, hy, hp.2⟩

theorem disj_cross_iff {a b : List Box} : (∀ x ∈ a, ∀ y ∈ b, Disj x y) ↔
    ∀ p, InL p a → ¬ InL p b := by
  constructor
  · rintro h p ⟨x, hx, hp⟩ ⟨y, hy, hpy⟩
    exact h x hx y hy p ⟨hp, hpy⟩
  · intro h x hx y hy p hp
    exact h p ⟨x, hx, hp.1⟩ ⟨y, hy, hp.2⟩

/-- Replacing each box of a disjoint list by disjoint pieces of it gives a disjoint list. -/
theorem disjL_flatMap {l : List Box} {f : Box → List Box} (h : DisjL l)
    (h1 : ∀ b ∈ l, DisjL (f b)) (h2 : ∀ b ∈ l, ∀ p, InL p (f b) → InB p b) :
    DisjL (l.flatMap f) := by
  induction l with
  | nil => simp [DisjL]
  | cons a as ih =>
    rw [List.flatMap_cons, disjL_append]
    unfold DisjL at h
    rw [List.pairwise_cons] at h
    refine ⟨h1 a (by simp), ih h.2 (fun b hb => h1 b (by simp [hb]))
      (fun b hb => h2 b (by simp [hb])), ?_⟩
    rw [disj_cross_iff]
    intro p hp hp'
    rw [inL_flatMap] at hp'
    obtain ⟨b, hb, hp'⟩ := hp'
    exact h.1 b hb p ⟨h2 a (by simp) p hp, h2 b (by simp [hb]) p hp'⟩

theorem inL_filter (f : Box → Bool) (l : List Box) (p : Point) :
    InL p l ↔ InL p (l.filter f) ∨ InL p (l.filter fun x => !f x) := by
  simp only [InL, List.mem_filter]
  constructor
  · rintro ⟨b, hb, hp⟩
    cases hf : f b
    · exact Or.inr ⟨b, ⟨hb, by simp [hf]⟩, hp⟩
    · exact Or.inl ⟨b, ⟨hb, hf⟩, hp⟩
  · rintro (⟨b, hb, hp⟩ | ⟨b, hb, hp⟩)
    · exact ⟨b, hb.1, hp⟩
    · exact ⟨b, hb.1, hp⟩

theorem filter_perm (f : Box → Bool) (l : List Box) :
    (l.filter (fun x => !f x) ++ l.filter f).Perm l := by
  have := List.filter_append_perm f l
  exact List.perm_append_comm.trans this

/-- The pieces produced by the carving loop. -/
theorem carve_spec {k : Nat} (ov : Box → Bool) (S : List Box)
    (hov : ∀ d, Ranked k d → ov d = false → ∀ p, InB p d → ¬ InL p S) :
    ∀ (rs cur out : List Box), (∀ r ∈ rs, r ∈ S) →
    (∀ r ∈ rs, Ranked k r) → (∀ d ∈ cur, Ranked k d) → (∀ d ∈ out, Ranked k d) →
    DisjL (out ++ cur) →
    (∀ d ∈ (carve ov rs cur out).1, Ranked k d) ∧ (∀ d ∈ (carve ov rs cur out).2, Ranked k d) ∧
    DisjL ((carve ov rs cur out).1 ++ (carve ov rs cur out).2) ∧
    (∀ p, InL p (carve ov rs cur out).1 ∨ InL p (carve ov rs cur out).2 ↔
      InL p out ∨ (InL p cur ∧ ¬ InL p rs)) ∧
    (∀ d ∈ (carve ov rs cur out).1, d ∈ out ∨ ov d = false) ∧
    (∀ d ∈ (carve ov rs cur out).2, (rs = [] ∧ d ∈ cur) ∨ ov d = true) ∧
    (∀ p, InL p (carve ov rs cur out).2 → InL p cur ∧ ¬ InL p rs)
  | [], cur, out, _, _, hc, ho, hd => by
    simp only [carve]
    refine ⟨ho, hc, hd, fun p => by simp [inL_nil], fun d h => Or.inl h, fun d h => Or.inl ⟨trivial, h⟩,
      fun p hp => ⟨hp, inL_nil p⟩⟩
  | r :: rs, cur, out, hS, hr, hc, ho, hd => by
    rw [carve]
    set diffs := cur.flatMap fun c => c.subtract r with hdiffs
    have hrr := hr r (by simp)
    have hdr : ∀ d ∈ diffs, Ranked k d := by
      intro d hd
      obtain ⟨c, hc', hd⟩ := List.mem_flatMap.1 hd
      exact subtract_ranked (hc c hc') hrr d hd
    have hin : ∀ p, InL p diffs ↔ InL p cur ∧ ¬ InB p r := by
      intro p
      rw [hdiffs, inL_flatMap]
      constructor
      · rintro ⟨c, hc', hp⟩
        rw [inL_subtract (hc c hc') hrr] at hp
        exact ⟨⟨c, hc', hp.1⟩, hp.2⟩
      · rintro ⟨⟨c, hc', hp⟩, hn⟩
        exact ⟨c, hc', (inL_subtract (hc c hc') hrr p).2 ⟨hp, hn⟩⟩
    rw [disjL_append] at hd
    obtain ⟨hd1, hd2, hd3⟩ := hd
    have hdd : DisjL diffs := by
      apply disjL_flatMap hd2
      · intro b hb; exact disjL_subtract (hc b hb) hrr
      · intro b hb p hp; exact ((inL_subtract (hc b hb) hrr p).1 hp).1
    have hfp := filter_perm ov diffs
    have hdis : DisjL ((out ++ diffs.filter fun d => !ov d) ++ diffs.filter fun d => ov d) := by
      rw [List.append_assoc, disjL_append]
      refine ⟨hd1, (disjL_perm hfp).2 hdd, ?_⟩
      rw [disj_cross_iff] at hd3 ⊢
      intro p hp hp'
      rw [inL_perm hfp, hin] at hp'
      exact hd3 p hp hp'.1
    obtain ⟨i1, i2, i3, i4, i5, i6, i7⟩ := carve_spec ov S hov rs (diffs.filter fun d => ov d)
      (out ++ diffs.filter fun d => !ov d) (fun r h => hS r (by simp [h])) (fun r h => hr r (by simp [h]))
      (fun d h => hdr d (List.mem_filter.1 h).1)
      (fun d h => (List.mem_append.1 h).elim (ho d) fun h => hdr d (List.mem_filter.1 h).1) hdis
    have hcase : ∀ d ∈ (carve ov rs (diffs.filter fun d => ov d)
        (out ++ diffs.filter fun d => !ov d)).1, d ∈ out ∨ ov d = false := by
      intro d h
      rcases i5 d h with h | h
      · rcases List.mem_append.1 h with h | h
        · exact Or.inl h
        · right; simpa using (List.mem_filter.1 h).2
      · exact Or.inr h
    have hSrs : ∀ p, InL p (r :: rs) → InL p S := by
      rintro p ⟨b, hb, hp⟩; exact ⟨b, hS b hb, hp⟩
    have hno : ∀ p, InL p (diffs.filter fun d => !ov d) → ¬ InL p S := by
      rintro p ⟨d, hd, hp⟩
      have := List.mem_filter.1 hd
      exact hov d (hdr d this.1) (by simpa using this.2) p hp
    refine ⟨i1, i2, i3, ?_, hcase, ?_, ?_⟩
    · intro p
      rw [i4, inL_append, inL_cons]
      have h1 := inL_filter ov diffs p
      rw [hin] at h1
      have h2 := hno p
      have h3 := hSrs p
      rw [inL_cons] at h3
      by_cases hq : InL p (diffs.filter fun d => !ov d)
      · have : ¬ InB p r ∧ ¬ InL p rs := by tauto
        tauto
      · tauto
    · intro d h
      right
      rcases i6 d h with ⟨_, h⟩ | h
      · exact (List.mem_filter.1 h).2
      · exact h
    · intro p hp
      obtain ⟨h1, h2⟩ := i7 p hp
      have h3 := (inL_filter ov diffs p).2 (Or.inl h1)
      rw [hin] at h3
      rw [inL_cons]
      tauto

/-- Carving all the ranges of a set out of a box: what is emitted is the difference, as disjoint
boxes, and nothing is left. -/
theorem carve_complete {k : Nat} {s : IndexSet} (hs : SetOk k s) (hne : s.ranges ≠ []) {q : Box}
    (hq : Ranked k q) :
    (∀ d ∈ (carve s.overlapsBox s.ranges [q] []).1, Ranked k d) ∧
    DisjL (carve s.overlapsBox s.ranges [q] []).1 ∧
    (∀ p, InL p (carve s.overlapsBox s.ranges [q] []).1 ↔ InB p q ∧ ¬ Has s p) ∧
    (carve s.overlapsBox s.ranges [q] []).2 = [] := by
  have hov : ∀ d, Ranked k d → s.overlapsBox d = false → ∀ p, InB p d → ¬ InL p s.ranges := by
    intro d hd h p hp hps
    have := (overlapsBox_iff hs hd).2 ⟨p, hps, hp⟩
    rw [h] at this
    simp at this
  obtain ⟨h1, h2, h3, h4, h5, h6, h7⟩ := carve_spec (k := k) s.overlapsBox s.ranges hov s.ranges [q] []
    (fun r h => h) (ranges_ranked hs) (by simpa using hq) (by simp) (by simp [DisjL])
  have hnil : (carve s.overlapsBox s.ranges [q] []).2 = [] := by
    rw [eq_nil_of_ranked h2]
    rintro p ⟨d, hd, hp⟩
    have h8 := (h7 p ⟨d, hd, hp⟩).2
    rcases h6 d hd with ⟨h, _⟩ | h
    · exact hne h
    · -- the piece overlaps a stored point, but every point of it is outside
      obtain ⟨p', hp1, hp2⟩ := (overlapsBox_iff hs (h2 d hd)).1 h
      exact (h7 p' ⟨d, hd, hp2⟩).2 hp1
  refine ⟨h1, (disjL_append.1 h3).1, ?_, hnil⟩
  intro p
  have := h4 p
  rw [hnil] at this
  simp only [inL_nil, or_false, false_or] at this
  rw [this]
  simp [InL, Has]

/-! #### Merging -/

theorem perm_cons_eraseIdx {l : List Box} {j : Nat} {b : Box} (h : l[j]? = some b) :
    l.Perm (b :: l.eraseIdx j) := by
  induction l generalizing j with
  | nil => simp at h
  | cons a as ih =>
    cases j with
    | zero => simp at h; subst h; simp
    | succ j =>
      simp only [List.getElem?_cons_succ] at h
      simp only [List.eraseIdx_cons_succ]
      exact ((ih h).cons a).trans (List.Perm.swap _ _ _)

theorem findMergeable_spec {a : Box} : ∀ {l : List Box} {j d : Nat},
    findMergeable a l = some (j, d) → ∃ b, l[j]? = some b ∧ a.canBeMerged b = (true, d)
  | [], _, _, h => by simp [findMergeable] at h
  | b :: bs, j, d, h => by
    rw [findMergeable] at h
    split at h
    · rename_i d' hc
      simp only [Option.some.injEq, Prod.mk.injEq] at h
      obtain ⟨rfl, rfl⟩ := h
      exact ⟨b, by simp, hc⟩
    · cases hm : findMergeable a bs with
      | none => rw [hm] at h; simp at h
      | some x =>
        obtain ⟨j', d'⟩ := x
        rw [hm] at h
        simp only [Option.map_some, Option.some.injEq, Prod.mk.injEq] at h
        obtain ⟨rfl, rfl⟩ := h
        obtain ⟨c, hc1, hc2⟩ := findMergeable_spec hm
        exact ⟨c, by simpa using hc1, hc2⟩

/-- What a merging step keeps: well-formedness, the points, and disjointness. -/
structure SameSet (k : Nat) (l l' : List Box) : Prop where
  ranked : ∀ b ∈ l', Ranked k b
  mem : ∀ p, InL p l' ↔ InL p l
  disj : DisjL l → DisjL l'

theorem SameSet.refl {k : Nat} {l : List Box} (h : ∀ b ∈ l, Ranked k b) : SameSet k l l :=
  ⟨h, fun _ => Iff.rfl, id⟩

theorem SameSet.trans {k : Nat} {a b c : List Box} (h1 : SameSet k a b) (h2 : SameSet k b c) :
    SameSet k a c := ⟨h2.ranked, fun p => (h2.mem p).trans (h1.mem p), fun h => h2.disj (h1.disj h)⟩

theorem SameSet.perm {k : Nat} {a b : List Box} (h : a.Perm b) (ha : ∀ x ∈ a, Ranked k x) :
    SameSet k a b :=
  ⟨fun x hx => ha x (h.mem_iff.2 hx), fun p => (inL_perm h p).symm, (disjL_perm h).1⟩

theorem SameSet.cons {k : Nat} {a : Box} {l l' : List Box} (ha : Ranked k a) (h : SameSet k l l') :
    SameSet k (a :: l) (a :: l') := by
  refine ⟨?_, fun p => by rw [inL_cons, inL_cons, h.mem], fun hd => ?_⟩
  · intro b hb
    rcases List.mem_cons.1 hb with rfl | hb
    · exact ha
    · exact h.ranked b hb
  · unfold DisjL at hd ⊢
    rw [List.pairwise_cons] at hd ⊢
    refine ⟨?_, h.disj hd.2⟩
    rw [disj_iff_forall_inL]
    intro p hp hl
    rw [h.mem] at hl
    exact (disj_iff_forall_inL.1 hd.1) p hp hl

theorem mergeOnce_spec {k : Nat} : ∀ {l l' : List Box}, (∀ b ∈ l, Ranked k b) →
    mergeOnce l = some l' → SameSet k l l' ∧ l'.length + 1 = l.length
  | [], _, _, h => by simp [mergeOnce] at h
  | a :: l, l', hr, h => by
    rw [mergeOnce] at h
    split at h
    · rename_i j d hf
      obtain ⟨b, hb1, hb2⟩ := findMergeable_spec hf
      rw [hb1] at h
      simp only [Option.some.injEq] at h
      subst h
      have hp := perm_cons_eraseIdx hb1
      have ha := hr a (by simp)
      have hbm : b ∈ l := List.mem_of_getElem? hb1
      have hbr := hr b (by simp [hbm])
      obtain ⟨m1, m2, m3⟩ := Props.C04_merge_exact a b ha.1 hbr.1 (ha.2.trans hbr.2.symm) d hb2
      have hlen : j < l.length := by
        by_contra hc
        rw [List.getElem?_eq_none (by omega)] at hb1
        simp at hb1
      refine ⟨⟨?_, ?_, ?_⟩, ?_⟩
      · intro x hx
        rcases List.mem_cons.1 hx with rfl | hx
        · exact ⟨m1, m2.trans ha.2⟩
        · exact hr x (by simp [hp.mem_iff, hx])
      · intro p
        rw [inL_cons, m3, inL_cons, inL_perm hp, inL_cons]
        tauto
      · intro hd
        have hd' : DisjL (a :: b :: l.eraseIdx j) := (disjL_perm (hp.cons a)).1 hd
        unfold DisjL at hd' ⊢
        rw [List.pairwise_cons, List.pairwise_cons] at hd'
        rw [List.pairwise_cons]
        refine ⟨?_, hd'.2.2⟩
        intro y hy p hpp
        rw [m3] at hpp
        rcases hpp with ⟨h | h, hy'⟩
        · exact hd'.1 y (by simp [hy]) p ⟨h, hy'⟩
        · exact hd'.2.1 y hy p ⟨h, hy'⟩
      · simp [List.length_eraseIdx, hlen]; omega
    · cases hm : mergeOnce l with
      | none => rw [hm] at h; simp at h
      | some m =>
        rw [hm] at h
        simp only [Option.map_some, Option.some.injEq] at h
        subst h
        obtain ⟨i1, i2⟩ := mergeOnce_spec (fun b hb => hr b (by simp [hb])) hm
        exact ⟨i1.cons (hr a (by simp)), by simp [i2]⟩

theorem mergeAll_spec {k : Nat} : ∀ (fuel : Nat) (l : List Box), (∀ b ∈ l, Ranked k b) →
    SameSet k l (mergeAll fuel l) ∧ (mergeAll fuel l).length ≤ l.length
  | 0, l, hr => by rw [mergeAll]; exact ⟨.refl hr, le_refl _⟩
  | fuel + 1, l, hr => by
    rw [mergeAll]
    split
    · rename_i l' h
      obtain ⟨h1, h2⟩ := mergeOnce_spec hr h
      obtain ⟨i1, i2⟩ := mergeAll_spec fuel l' h1.ranked
      exact ⟨h1.trans i1, by omega⟩
    · exact ⟨.refl hr, le_refl _⟩

/-- The fuel of `mergeAll` suffices: at the end no pair can be merged. -/
theorem mergeAll_done {k : Nat} : ∀ (fuel : Nat) (l : List Box), (∀ b ∈ l, Ranked k b) →
    l.length ≤ fuel → mergeOnce (mergeAll fuel l) = none
  | 0, l, _, h => by
    have : l = [] := List.length_eq_zero_iff.1 (by omega)
    subst this; simp [mergeAll, mergeOnce]
  | fuel + 1, l, hr, h => by
    rw [mergeAll]
    split
    · rename_i l' h'
      obtain ⟨h1, h2⟩ := mergeOnce_spec hr h'
      exact mergeAll_done fuel l' h1.ranked (by omega)
    · assumption

theorem insertionHook_spec {k : Nat} {l : List Box} (hr : ∀ b ∈ l, Ranked k b) :
    SameSet k l (insertionHook l) ∧ (insertionHook l).length ≤ l.length := by
  have hp := sortBoxes_perm l
  have h1 := SameSet.perm hp.symm hr
  obtain ⟨h2, h3⟩ := mergeAll_spec (sortBoxes l).length (sortBoxes l) h1.ranked
  exact ⟨h1.trans h2, h3.trans (by rw [hp.length_eq])⟩

theorem insertionHook_ne_nil {k : Nat} {l : List Box} (hr : ∀ b ∈ l, Ranked k b) (hne : l ≠ []) :
    insertionHook l ≠ [] := by
  obtain ⟨h1, _⟩ := insertionHook_spec hr
  intro h
  obtain ⟨b, hb⟩ := List.exists_mem_of_ne_nil _ hne
  obtain ⟨p, hp⟩ := ranked_exists (hr b hb)
  have := (h1.mem p).2 ⟨b, hb, hp⟩
  rw [h] at this
  exact inL_nil p this

/-! #### Compaction -/

theorem inB_iff_get {p : Point} {b : Box} : InB p b ↔ b.length = p.length ∧
    ∀ (i : Nat) (r : Range) (x : Int), b[i]? = some r → p[i]? = some x → InR x r := by
  unfold InB
  rw [List.forall₂_iff_get]
  constructor
  · rintro ⟨h1, h2⟩
    refine ⟨h1, fun i r x hr hx => ?_⟩
    obtain ⟨hi, rfl⟩ := List.getElem?_eq_some_iff.1 hr
    obtain ⟨hj, rfl⟩ := List.getElem?_eq_some_iff.1 hx
    exact h2 i hi hj
  · rintro ⟨h1, h2⟩
    refine ⟨h1, fun i hi hj => ?_⟩
    exact h2 i _ _ (List.getElem?_eq_getElem hi) (List.getElem?_eq_getElem hj)

/-- Membership in a box with one range replaced. -/
theorem inB_set {p : Point} {b : Box} {d : Nat} {r : Range} (h : d < b.length) :
    InB p (b.set d r) ↔ ∃ x, p[d]? = some x ∧ InR x r ∧ b.length = p.length ∧
      ∀ (i : Nat) (s : Range) (y : Int), i ≠ d → b[i]? = some s → p[i]? = some y → InR y s := by
  rw [inB_iff_get, List.length_set]
  constructor
  · rintro ⟨h1, h2⟩
    have hd : d < p.length := by omega
    refine ⟨p[d], List.getElem?_eq_getElem hd, h2 d r _ ?_ (List.getElem?_eq_getElem hd), h1, ?_⟩
    · simp [h]
    · intro i s y hi hs hy
      refine h2 i s y ?_ hy
      rw [List.getElem?_set_ne (Ne.symm hi)]; exact hs
  · rintro ⟨x, hx, hxr, h1, h2⟩
    refine ⟨h1, fun i s y hs hy => ?_⟩
    by_cases hi : i = d
    · subst hi
      rw [hx] at hy
      simp [h] at hs
      simp only [Option.some.injEq] at hy
      subst hs hy
      exact hxr
    · rw [List.getElem?_set_ne (Ne.symm hi)] at hs
      exact h2 i s y hi hs hy

theorem set_getD_self {b : Box} {d : Nat} (h : d < b.length) : b.set d (b.getD d ⟨0, 0⟩) = b := by
  rw [List.getD_eq_getElem?_getD, List.getElem?_eq_getElem h]
  simp

theorem ranked_set {k : Nat} {b : Box} {d : Nat} {r : Range} (hb : Ranked k b) (hr : r.Valid) :
    Ranked k (b.set d r) := by
  refine ⟨⟨?_, ?_⟩, by simp [hb.2]⟩
  · intro h
    have : b.length = 0 := by rw [← List.length_set (i := d) (a := r), h]; rfl
    exact hb.1.1 (List.length_eq_zero_iff.1 this)
  · intro s hs
    rcases List.mem_or_eq_of_mem_set hs with h | h
    · exact hb.1.2 s h
    · rwa [h]

theorem getD_valid {k : Nat} {b : Box} {d : Nat} (hb : Ranked k b) (h : d < k) :
    (b.getD d ⟨0, 0⟩).Valid := by
  have h' : d < b.length := by rw [hb.2]; exact h
  rw [List.getD_eq_getElem?_getD, List.getElem?_eq_getElem h']
  exact hb.1.2 _ (List.getElem_mem h')

theorem splitRange_spec {k : Nat} {r g : Box} {d : Nat} (hr : Ranked k r) (hg : Ranked k g)
    (hd : d < k) (hs : shouldSplit r g d = true) :
    (∀ b ∈ splitRange r g d, Ranked k b) ∧ DisjL (splitRange r g d) ∧
    (∀ p, InL p (splitRange r g d) ↔ InB p r) := by
  have hdl : d < r.length := by rw [hr.2]; exact hd
  have hx := getD_valid hr hd
  have hy := getD_valid hg hd
  unfold shouldSplit at hs
  unfold splitRange
  set x := r.getD d ⟨0, 0⟩ with hxe
  set y := g.getD d ⟨0, 0⟩
  have hs' : x.overlaps y = true := by
    rw [Props.C02_overlaps _ _ hy hx] at hs
    rw [Props.C02_overlaps _ _ hx hy]
    obtain ⟨z, h1, h2⟩ := hs
    exact ⟨z, h2, h1⟩
  obtain ⟨a1, a2⟩ := Props.C02_intersect x y hx hy hs'
  obtain ⟨b1, b2, b3⟩ := Props.C02_subtract x y hx hy
  refine ⟨?_, ?_, ?_⟩
  · intro b hb
    obtain ⟨t, ht, rfl⟩ := List.mem_map.1 hb
    rcases List.mem_cons.1 ht with rfl | ht
    · exact ranked_set hr a1
    · exact ranked_set hr (b1 t ht)
  · unfold DisjL
    rw [List.pairwise_map]
    have : (x.intersect y :: x.subtract y).Pairwise (fun a b => ∀ z, ¬ (InR z a ∧ InR z b)) := by
      rw [List.pairwise_cons]
      refine ⟨fun t ht z hz => ?_, b2⟩
      exact ((b3 z).1 ⟨t, ht, hz.2⟩).2 ((a2 z).1 hz.1).2
    refine this.imp fun {a b} h p hp => ?_
    rw [inB_set hdl, inB_set hdl] at hp
    obtain ⟨⟨z, hz1, hz2, _⟩, ⟨w, hw1, hw2, _⟩⟩ := hp
    rw [hz1] at hw1
    simp only [Option.some.injEq] at hw1
    subst hw1
    exact h z ⟨hz2, hw2⟩
  · intro p
    have hself : InB p r ↔ InB p (r.set d x) := by rw [hxe, set_getD_self hdl]
    rw [hself, inB_set hdl]
    constructor
    · rintro ⟨b, hb, hp⟩
      obtain ⟨t, ht, rfl⟩ := List.mem_map.1 hb
      rw [inB_set hdl] at hp
      obtain ⟨z, h1, h2, h3⟩ := hp
      refine ⟨z, h1, ?_, h3⟩
      rcases List.mem_cons.1 ht with rfl | ht
      · exact ((a2 z).1 h2).1
      · exact ((b3 z).1 ⟨t, ht, h2⟩).1
    · rintro ⟨z, h1, h2, h3⟩
      by_cases hzy : InR z y
      · exact ⟨_, List.mem_map.2 ⟨_, by simp, rfl⟩,
          (inB_set hdl).2 ⟨z, h1, (a2 z).2 ⟨h2, hzy⟩, h3⟩⟩
      · obtain ⟨t, ht, hzt⟩ := (b3 z).2 ⟨h2, hzy⟩
        exact ⟨_, List.mem_map.2 ⟨t, by simp [ht], rfl⟩, (inB_set hdl).2 ⟨z, h1, hzt, h3⟩⟩

theorem splitStep_spec {k : Nat} {g r : Box} {d : Nat} (hr : Ranked k r) (hg : Ranked k g)
    (hd : d < k) :
    (∀ b ∈ splitStep d g r, Ranked k b) ∧ DisjL (splitStep d g r) ∧
    (∀ p, InL p (splitStep d g r) ↔ InB p r) := by
  unfold splitStep
  split_ifs with h
  · exact splitRange_spec hr hg hd h
  · exact ⟨by simpa using hr, by simp [DisjL], fun p => by simp [InL]⟩

theorem splitStep_flatMap {k : Nat} {g : Box} {d : Nat} (hg : Ranked k g) (hd : d < k)
    {l : List Box} (hl : ∀ b ∈ l, Ranked k b) : SameSet k l (l.flatMap (splitStep d g)) := by
  refine ⟨?_, ?_, ?_⟩
  · intro b hb
    obtain ⟨r, hr, hb⟩ := List.mem_flatMap.1 hb
    exact (splitStep_spec (hl r hr) hg hd).1 b hb
  · intro p
    rw [inL_flatMap]
    constructor
    · rintro ⟨r, hr, hp⟩
      exact ⟨r, hr, ((splitStep_spec (hl r hr) hg hd).2.2 p).1 hp⟩
    · rintro ⟨r, hr, hp⟩
      exact ⟨r, hr, ((splitStep_spec (hl r hr) hg hd).2.2 p).2 hp⟩
  · intro h
    exact disjL_flatMap h (fun b hb => (splitStep_spec (hl b hb) hg hd).2.1)
      (fun b hb p hp => ((splitStep_spec (hl b hb) hg hd).2.2 p).1 hp)

theorem SameSet.append {k : Nat} {a a' b b' : List Box} (h1 : SameSet k a a') (h2 : SameSet k b b') :
    SameSet k (a ++ b) (a' ++ b') := by
  refine ⟨fun x hx => (List.mem_append.1 hx).elim (h1.ranked x) (h2.ranked x),
    fun p => by rw [inL_append, inL_append, h1.mem, h2.mem], fun h => ?_⟩
  rw [disjL_append] at h ⊢
  refine ⟨h1.disj h.1, h2.disj h.2.1, ?_⟩
  have h3 := h.2.2
  rw [disj_cross_iff] at h3 ⊢
  intro p hp
  rw [h2.mem]
  exact h3 p ((h1.mem p).1 hp)

theorem splitLoop_spec {k d : Nat} (hd : d < k) : ∀ (fuel : Nat) (l r : List Box),
    (∀ b ∈ l, Ranked k b) → (∀ b ∈ r, Ranked k b) → SameSet k (l ++ r) (splitLoop d fuel l r)
  | 0, l, r, hl, hr => by
    rw [splitLoop]
    exact .refl fun b hb => (List.mem_append.1 hb).elim (hl b) (hr b)
  | fuel + 1, l, [], hl, hr => by
    rw [splitLoop, List.append_nil]
    · exact .refl hl
    · simp
  | fuel + 1, l, g :: r, hl, hr => by
    rw [splitLoop]
    have hg := hr g (by simp)
    have h1 := splitStep_flatMap hg hd hl
    have h2 := splitStep_flatMap hg hd (l := r) (fun b hb => hr b (by simp [hb]))
    have h3 : SameSet k (l ++ g :: r)
        ((l.flatMap (splitStep d g) ++ [g]) ++ r.flatMap (splitStep d g)) := by
      rw [List.append_assoc]
      exact h1.append (SameSet.cons hg h2)
    refine h3.trans (splitLoop_spec hd fuel _ _ ?_ h2.ranked)
    intro b hb
    exact h3.ranked b (List.mem_append_left _ hb)

theorem dedupFrom_spec {k : Nat} : ∀ (l : List Box) (a : Box), Ranked k a →
    (∀ b ∈ l, Ranked k b) → SameSet k (a :: l) (dedupFrom a l)
  | [], a, ha, _ => .refl (by simpa [dedupFrom] using ha)
  | b :: l, a, ha, hl => by
    rw [dedupFrom]
    have hb := hl b (by simp)
    split_ifs with h
    · have : b = a := (Props.box_eq_iff b a).1 h
      subst this
      have ih := dedupFrom_spec l b ha (fun c hc => hl c (by simp [hc]))
      refine ⟨ih.ranked, fun p => by rw [ih.mem, inL_cons, inL_cons, inL_cons]; tauto, fun h => ?_⟩
      unfold DisjL at h
      exact ih.disj (List.pairwise_cons.1 h).2
    · exact SameSet.cons ha (dedupFrom_spec l b hb (fun c hc => hl c (by simp [hc])))

theorem splitDims_spec {k : Nat} : ∀ (ds : List Nat) (l : List Box), (∀ d ∈ ds, d < k) →
    (∀ b ∈ l, Ranked k b) → SameSet k l (splitDims ds l)
  | [], l, _, hl => .refl hl
  | d :: ds, l, hd, hl => by
    rw [splitDims]
    have h1 := splitLoop_spec (hd d (by simp)) (extent d l) [] l (by simp) hl
    exact h1.trans (splitDims_spec ds _ (fun d h => hd d (by simp [h])) h1.ranked)

theorem splitToMinGrid_spec {k : Nat} {l : List Box} (hl : ∀ b ∈ l, Ranked k b) :
    SameSet k l (splitToMinGrid l) := by
  cases l with
  | nil => exact .refl hl
  | cons b l =>
    refine splitDims_spec _ _ (fun d hd => ?_) hl
    have := (hl b (by simp)).2
    rw [List.mem_range] at hd
    omega

theorem compactRanges_spec {k : Nat} {s : IndexSet} (hs : SetOk k s) :
    SameSet k s.ranges s.compactRanges := by
  have h1 := splitToMinGrid_spec (ranges_ranked hs)
  have h2 := h1.trans (SameSet.perm (sortBoxes_perm _).symm h1.ranked)
  have h3 : SameSet k s.ranges (removeDuplicates (sortBoxes (splitToMinGrid s.ranges))) := by
    refine h2.trans ?_
    generalize hl : sortBoxes (splitToMinGrid s.ranges) = l at h2
    cases l with
    | nil => exact .refl (by simp)
    | cons a l =>
      exact dedupFrom_spec l a (h2.ranked a (by simp)) (fun b hb => h2.ranked b (by simp [hb]))
  exact h3.trans (mergeAll_spec _ _ h3.ranked).1


end IndexSet
end Marco
