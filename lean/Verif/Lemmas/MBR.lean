import Verif.Lemmas.RTree

/-! Helper lemmas on minimum bounding boxes. -/

namespace Marco
open Spec

theorem subR_iff {r s : Range} (hr : r.Valid) : (∀ x, InR x r → InR x s) ↔ s.b ≤ r.b ∧ r.e ≤ s.e := by
  unfold InR Range.Valid at *
  constructor
  · intro h
    have h1 := h r.b ⟨le_refl _, hr⟩
    have h2 := h (r.e - 1) ⟨by omega, by omega⟩
    omega
  · rintro ⟨h1, h2⟩ x hx; omega

/-- `contains(box)` on boxes of equal rank is inclusion of the point sets. -/
theorem containsBox_iff : ∀ (b a : Box), b.length = a.length → (∀ r ∈ a, r.Valid) →
    (Box.containsBox b a = true ↔ SubB a b)
  | [], [], _, _ => by simp [Box.containsBox, SubB]
  | s :: ss, r :: rs, h, ha => by
    have ih := containsBox_iff ss rs (by simpa using h) (fun r hr => ha r (by simp [hr]))
    have hr : r.Valid := ha r (by simp)
    have e1 : Box.containsBox (s :: ss) (r :: rs) = true ↔
        s.containsRange r = true ∧ Box.containsBox ss rs = true := by
      cases hc : s.containsRange r <;> simp [Box.containsBox, hc]
    have e2 : s.containsRange r = true ↔ s.b ≤ r.b ∧ r.e ≤ s.e := by
      simp [Range.containsRange]
    rw [e1, e2, ih]
    obtain ⟨q, hq⟩ := Box.exists_inB (b := rs) (fun r hr => ha r (by simp [hr]))
    constructor
    · rintro ⟨h1, h2⟩ p hp
      obtain ⟨x, xs, rfl, h3, h4⟩ := (Box.inB_cons _ _ _).1 hp
      rw [Box.inB_cons_cons]
      exact ⟨(subR_iff hr).2 h1 x h3, h2 xs h4⟩
    · intro h1
      refine ⟨(subR_iff hr).1 fun x hx => ?_, fun p hp => ?_⟩
      · exact ((Box.inB_cons_cons _ _ _ _).1 (h1 (x :: q) ((Box.inB_cons_cons _ _ _ _).2 ⟨hx, hq⟩))).1
      · exact ((Box.inB_cons_cons _ _ _ _).1
          (h1 (r.b :: p) ((Box.inB_cons_cons _ _ _ _).2 ⟨⟨le_refl _, hr⟩, hp⟩))).2
  | [], _ :: _, h, _ => by simp at h
  | _ :: _, [], h, _ => by simp at h

theorem subB_refl (a : Box) : SubB a a := fun _ h => h

theorem subB_trans {a b c : Box} (h1 : SubB a b) (h2 : SubB b c) : SubB a c :=
  fun p hp => h2 p (h1 p hp)

theorem subB_length {a b : Box} (ha : ∀ r ∈ a, r.Valid) (h : SubB a b) : a.length = b.length := by
  obtain ⟨p, hp⟩ := Box.exists_inB ha
  have h1 := Box.inB_length hp
  have h2 := Box.inB_length (h p hp)
  omega

/-- Boxes denoting the same points are equal. -/
theorem box_ext : ∀ {a b : Box}, (∀ r ∈ a, r.Valid) → (∀ r ∈ b, r.Valid) →
    SubB a b → SubB b a → a = b
  | [], b, _, hb, h1, h2 => by
    have := subB_length hb h2
    simp at this; rw [this]
  | r :: rs, [], ha, _, h1, _ => by
    have := subB_length ha h1
    simp at this
  | r :: rs, s :: ss, ha, hb, h1, h2 => by
    have hl := subB_length ha h1
    have e1 := (containsBox_iff (s :: ss) (r :: rs) hl.symm ha).2 h1
    have e2 := (containsBox_iff (r :: rs) (s :: ss) hl hb).2 h2
    have k1 : s.containsRange r = true ∧ Box.containsBox ss rs = true := by
      cases hc : s.containsRange r <;> simp_all [Box.containsBox]
    have k2 : r.containsRange s = true ∧ Box.containsBox rs ss = true := by
      cases hc : r.containsRange s <;> simp_all [Box.containsBox]
    have hl' : rs.length = ss.length := by simpa using hl
    have hrs := box_ext (a := rs) (b := ss) (fun r hr => ha r (by simp [hr]))
      (fun r hr => hb r (by simp [hr]))
      ((containsBox_iff ss rs hl'.symm (fun r hr => ha r (by simp [hr]))).1 k1.2)
      ((containsBox_iff rs ss hl' (fun r hr => hb r (by simp [hr]))).1 k2.2)
    have h3 := k1.1
    have h4 := k2.1
    simp only [Range.containsRange, Bool.and_eq_true, decide_eq_true_eq] at h3 h4
    have : r = s := by
      cases r; cases s
      simp only [Range.mk.injEq]
      simp only at h3 h4
      omega
    rw [this, hrs]

namespace RTree

theorem mbr2_length (a b : Box) (h : a.length = b.length) : (mbr2 a b).length = a.length := by
  simp [mbr2, h]

theorem mbr2_spec : ∀ (a b : Box), a.length = b.length → (∀ r ∈ a, r.Valid) → (∀ r ∈ b, r.Valid) →
    (∀ r ∈ mbr2 a b, r.Valid) ∧ SubB a (mbr2 a b) ∧ SubB b (mbr2 a b) ∧
    ∀ c, SubB a c → SubB b c → SubB (mbr2 a b) c
  | [], [], _, _, _ => by simp [mbr2, SubB]
  | r :: rs, s :: ss, h, ha, hb => by
    have hl : rs.length = ss.length := by simpa using h
    have har : ∀ r ∈ rs, r.Valid := fun r hr => ha r (by simp [hr])
    have hbr : ∀ r ∈ ss, r.Valid := fun r hr => hb r (by simp [hr])
    obtain ⟨i1, i2, i3, i4⟩ := mbr2_spec rs ss hl har hbr
    have hr : r.Valid := ha r (by simp)
    have hs : s.Valid := hb s (by simp)
    have e : mbr2 (r :: rs) (s :: ss) = ⟨min r.b s.b, max r.e s.e⟩ :: mbr2 rs ss := rfl
    have hv : Range.Valid ⟨min r.b s.b, max r.e s.e⟩ := by
      unfold Range.Valid at *; simp only; omega
    rw [e]
    refine ⟨?_, ?_, ?_, ?_⟩
    · intro t ht
      rcases List.mem_cons.1 ht with rfl | ht
      · exact hv
      · exact i1 t ht
    · intro p hp
      obtain ⟨x, xs, rfl, h3, h4⟩ := (Box.inB_cons _ _ _).1 hp
      rw [Box.inB_cons_cons]
      refine ⟨?_, i2 xs h4⟩
      unfold InR at *; simp only; omega
    · intro p hp
      obtain ⟨x, xs, rfl, h3, h4⟩ := (Box.inB_cons _ _ _).1 hp
      rw [Box.inB_cons_cons]
      refine ⟨?_, i3 xs h4⟩
      unfold InR at *; simp only; omega
    · intro c h1 h2
      have hlc := subB_length ha h1
      cases c with
      | nil => simp at hlc
      | cons t ts =>
        have hlc' : rs.length = ts.length := by simpa using hlc
        have c1 := (containsBox_iff (t :: ts) (r :: rs) hlc.symm ha).2 h1
        have c2 := (containsBox_iff (t :: ts) (s :: ss) (by simp; omega) hb).2 h2
        have k1 : t.containsRange r = true ∧ Box.containsBox ts rs = true := by
          cases hc : t.containsRange r <;> simp_all [Box.containsBox]
        have k2 : t.containsRange s = true ∧ Box.containsBox ts ss = true := by
          cases hc : t.containsRange s <;> simp_all [Box.containsBox]
        have := i4 ts ((containsBox_iff ts rs hlc'.symm har).1 k1.2)
          ((containsBox_iff ts ss (by omega) hbr).1 k2.2)
        intro p hp
        obtain ⟨x, xs, rfl, h3, h4⟩ := (Box.inB_cons _ _ _).1 hp
        rw [Box.inB_cons_cons]
        refine ⟨?_, this xs h4⟩
        have h5 := k1.1
        have h6 := k2.1
        simp only [Range.containsRange, Bool.and_eq_true, decide_eq_true_eq] at h5 h6
        unfold InR at *; simp only at h3; omega
  | [], _ :: _, h, _, _ => by simp at h
  | _ :: _, [], h, _, _ => by simp at h

theorem ranked_mbr2 {k : Nat} {a b : Box} (ha : Ranked k a) (hb : Ranked k b) :
    Ranked k (mbr2 a b) := by
  have hl : a.length = b.length := ha.2.trans hb.2.symm
  refine ⟨⟨?_, (mbr2_spec a b hl ha.1.2 hb.1.2).1⟩, by rw [mbr2_length a b hl]; exact ha.2⟩
  intro h
  have := mbr2_length a b hl
  rw [h] at this
  exact ha.1.1 (List.length_eq_zero_iff.1 this.symm)

theorem foldl_mbr2 {k : Nat} : ∀ (l : List Box) (b : Box), Ranked k b → (∀ o ∈ l, Ranked k o) →
    Ranked k (l.foldl mbr2 b) ∧ SubB b (l.foldl mbr2 b) ∧ (∀ o ∈ l, SubB o (l.foldl mbr2 b)) ∧
    ∀ c, SubB b c → (∀ o ∈ l, SubB o c) → SubB (l.foldl mbr2 b) c
  | [], b, hb, _ => ⟨hb, subB_refl b, by simp, fun c h _ => h⟩
  | a :: l, b, hb, hl => by
    have ha : Ranked k a := hl a (by simp)
    have hm := ranked_mbr2 hb ha
    obtain ⟨_, s1, s2, s3⟩ := mbr2_spec b a (hb.2.trans ha.2.symm) hb.1.2 ha.1.2
    obtain ⟨i1, i2, i3, i4⟩ := foldl_mbr2 l (mbr2 b a) hm (fun o ho => hl o (by simp [ho]))
    refine ⟨i1, subB_trans s1 i2, ?_, ?_⟩
    · intro o ho
      rcases List.mem_cons.1 ho with rfl | ho
      · exact subB_trans s2 i2
      · exact i3 o ho
    · intro c h1 h2
      exact i4 c (s3 c h1 (h2 a (by simp))) (fun o ho => h2 o (by simp [ho]))

theorem mbrList_spec {k : Nat} {l : List Box} {b : Box} (h : mbrList l = some b)
    (hl : ∀ o ∈ l, Ranked k o) :
    Ranked k b ∧ (∀ o ∈ l, SubB o b) ∧ ∀ c, (∀ o ∈ l, SubB o c) → SubB b c := by
  cases l with
  | nil => simp [mbrList] at h
  | cons a l =>
    simp only [mbrList, Option.some.injEq] at h
    subst h
    obtain ⟨i1, i2, i3, i4⟩ := foldl_mbr2 l a (hl a (by simp)) (fun o ho => hl o (by simp [ho]))
    refine ⟨i1, ?_, fun c hc => i4 c (hc a (by simp)) (fun o ho => hc o (by simp [ho]))⟩
    intro o ho
    rcases List.mem_cons.1 ho with rfl | ho
    · exact i2
    · exact i3 o ho

theorem mbrList_isMBR {k : Nat} {l : List Box} {b : Box} (h : mbrList l = some b)
    (hl : ∀ o ∈ l, Ranked k o) : IsMBR b l :=
  ⟨(mbrList_spec h hl).2.1, fun c _ hc => (mbrList_spec h hl).2.2 c hc⟩

theorem mbrList_isSome {l : List Box} (h : l ≠ []) : ∃ b, mbrList l = some b := by
  cases l with
  | nil => exact absurd rfl h
  | cons a l => exact ⟨_, rfl⟩

/-- One node with an exact boundary: children xor objects, and boundary as computed by
`computeBoundary`. -/
structure NodeExact (k : Nat) (n : Node) : Prop where
  excl : n.ch = [] ∨ n.obs = []
  obs : ∀ o ∈ n.obs, Ranked k o
  exact : computeBoundary n = some n.bd

/-- All nodes of the subtree have exact boundaries. -/
def Exact (k : Nat) (n : Node) : Prop := AllNodes (NodeExact k) n

theorem Exact.ranked {k : Nat} {n : Node} (h : Exact k n) : Ranked k n.bd := by
  induction n using Node.ind with
  | _ n ih =>
    have hn := AllNodes.self h
    have he := hn.exact
    unfold computeBoundary at he
    split_ifs at he with hl
    · exact (mbrList_spec he hn.obs).1
    · refine (mbrList_spec he ?_).1
      intro o ho
      obtain ⟨c, hc, rfl⟩ := List.mem_map.1 ho
      exact ih c hc (AllNodes.child h hc)

theorem Exact.covers {k : Nat} {n : Node} (h : Exact k n) : Covers k n := by
  induction n using Node.ind with
  | _ n ih =>
    have hn := AllNodes.self h
    have he := hn.exact
    refine .mk ⟨h.ranked, hn.excl, ?_, ?_⟩ fun c hc => ih c hc (AllNodes.child h hc)
    · intro o ho
      refine ⟨hn.obs o ho, ?_⟩
      have hl : n.isLeaf = true := by
        rcases hn.excl with h1 | h1
        · simp [Node.isLeaf, h1]
        · rw [h1] at ho; simp at ho
      rw [computeBoundary, if_pos hl] at he
      exact (mbrList_spec he hn.obs).2.1 o ho
    · intro c hc
      have hl : n.isLeaf = false := by
        cases hch : n.ch with
        | nil => rw [hch] at hc; simp at hc
        | cons a b => simp [Node.isLeaf, hch]
      rw [computeBoundary, hl] at he
      simp only [Bool.false_eq_true, if_false] at he
      refine (mbrList_spec (k := k) he ?_).2.1 _ (List.mem_map.2 ⟨c, hc, rfl⟩)
      intro o ho
      obtain ⟨c, hc, rfl⟩ := List.mem_map.1 ho
      exact Exact.ranked (AllNodes.child h hc)

/-- In a tree with exact boundaries, each node boundary is the minimum bounding box of the
objects below it. -/
theorem Exact.isMBR {k : Nat} {n : Node} (h : Exact k n) :
    n.objects ≠ [] ∧ ∀ c, (∀ o ∈ n.objects, SubB o c) → SubB n.bd c := by
  induction n using Node.ind with
  | _ n ih =>
    have hn := AllNodes.self h
    have he := hn.exact
    unfold computeBoundary at he
    by_cases hl : n.ch = []
    · have : n.isLeaf = true := by simp [Node.isLeaf, hl]
      rw [if_pos this] at he
      rw [Node.objects_leaf hl]
      refine ⟨?_, (mbrList_spec he hn.obs).2.2⟩
      intro hno; rw [hno] at he; simp [mbrList] at he
    · have : ¬ n.isLeaf = true := by simp [Node.isLeaf, hl]
      rw [if_neg this] at he
      rw [Node.objects_inner hl]
      constructor
      · obtain ⟨c, hc⟩ := List.exists_mem_of_ne_nil _ hl
        obtain ⟨o, ho⟩ := List.exists_mem_of_ne_nil _ (ih c hc (AllNodes.child h hc)).1
        intro hno
        have : o ∈ Node.objectsL n.ch := (Node.mem_objectsL _ _).2 ⟨c, hc, ho⟩
        rw [hno] at this; simp at this
      · intro c hc
        refine (mbrList_spec (k := k) he ?_).2.2 c ?_
        · intro o ho
          obtain ⟨d, hd, rfl⟩ := List.mem_map.1 ho
          exact Exact.ranked (AllNodes.child h hd)
        · intro o ho
          obtain ⟨d, hd, rfl⟩ := List.mem_map.1 ho
          refine (ih d hd (AllNodes.child h hd)).2 c fun o ho => hc o ?_
          exact (Node.mem_objectsL _ _).2 ⟨d, hd, ho⟩

end RTree
end Marco
