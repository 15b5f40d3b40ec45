import Verif.Model.PointIterator
import Verif.Lemmas.IndexSet

/-! Helper lemmas about the iterators of the index sets. -/

namespace Marco
namespace IndexSet
open Spec RTree

variable {k : Nat}

theorem settle_spec : ∀ (fuel : Nat) (st : List Node), Node.weightL st ≤ fuel →
    (∀ n ∈ st, Tight k n) →
    Node.objectsL (settle fuel st) = Node.objectsL st ∧ (∀ n ∈ settle fuel st, Tight k n) ∧
      ∀ n st', settle fuel st = n :: st' → n.ch = []
  | fuel, [], _, _ => by
    have : settle fuel [] = [] := by cases fuel <;> rfl
    rw [this]
    simp
  | 0, n :: st, h, _ => by
    have := Node.weight_pos n
    rw [Node.weightL] at h
    omega
  | fuel + 1, n :: st, h, ht => by
    rw [settle]
    split
    · rename_i hl
      refine ⟨rfl, ht, ?_⟩
      intro n' st' he
      simp only [List.cons.injEq] at he
      rw [← he.1]
      simpa [Node.isLeaf] using hl
    · rename_i hl
      have hch : n.ch ≠ [] := by simpa [Node.isLeaf] using hl
      have hw : Node.weightL (n.ch ++ st) ≤ fuel := by
        rw [Node.weightL, Node.weight_eq] at h
        rw [Node.weightL_append]
        omega
      obtain ⟨h1, h2, h3⟩ := settle_spec fuel (n.ch ++ st) hw (by
        intro m hm
        rcases List.mem_append.1 hm with hm | hm
        · exact AllNodes.child (ht n (by simp)) hm
        · exact ht m (by simp [hm]))
      refine ⟨?_, h2, h3⟩
      rw [h1, Node.objectsL_eq_flatMap, Node.objectsL_eq_flatMap, List.flatMap_append,
        List.flatMap_cons, Node.objects_inner hch, Node.objectsL_eq_flatMap]

/-- The objects still to be visited. -/
def ObjIter.rem (it : ObjIter) : List Box :=
  match it.stack with
  | [] => []
  | n :: st => n.obs.drop it.idx ++ Node.objectsL st

/-- The states of the iterator. -/
def ObjIter.Good (k : Nat) (it : ObjIter) : Prop :=
  (∀ n ∈ it.stack, Tight k n) ∧
  match it.stack with
  | [] => it.idx = 0
  | n :: _ => n.ch = [] ∧ it.idx < n.obs.length

theorem settle_good {st : List Node} (ht : ∀ n ∈ st, Tight k n) {fuel : Nat}
    (hw : Node.weightL st ≤ fuel) :
    ObjIter.Good k ⟨settle fuel st, 0⟩ ∧ ObjIter.rem ⟨settle fuel st, 0⟩ = Node.objectsL st := by
  obtain ⟨h1, h2, h3⟩ := settle_spec fuel st hw ht
  cases hs : settle fuel st with
  | nil =>
    rw [hs] at h1
    refine ⟨⟨by simp, rfl⟩, ?_⟩
    rw [← h1]
    rfl
  | cons n st' =>
    have hn := h3 n st' hs
    have htn := h2 n (by rw [hs]; simp)
    have hob := (AllNodes.self htn).nonempty
    rw [Node.objects_leaf hn] at hob
    refine ⟨⟨by rw [← hs]; exact h2, hn, List.length_pos_iff.2 hob⟩, ?_⟩
    rw [← h1, hs]
    show n.obs.drop 0 ++ Node.objectsL st' = _
    rw [List.drop_zero, Node.objectsL, Node.objects_leaf hn]

theorem ObjIter.Good.nil {it : ObjIter} (h : it.Good k) (hr : it.rem = []) : it.atEnd = true := by
  obtain ⟨h1, h2⟩ := h
  unfold ObjIter.rem at hr
  unfold ObjIter.atEnd
  cases hs : it.stack with
  | nil => rw [hs] at h2; simpa using h2
  | cons n st =>
    rw [hs] at hr h2
    have h3 := (List.append_eq_nil_iff.1 hr).1
    rw [List.drop_eq_nil_iff] at h3
    have := h2.2
    omega

theorem ObjIter.Good.cons {it : ObjIter} {b : Box} {l : List Box} (h : it.Good k)
    (hr : it.rem = b :: l) : it.atEnd = false ∧ it.deref = some b ∧
      ∃ it', it.next = some it' ∧ it'.Good k ∧ it'.rem = l := by
  obtain ⟨h1, h2⟩ := h
  unfold ObjIter.rem at hr
  unfold ObjIter.atEnd ObjIter.deref ObjIter.next
  cases hs : it.stack with
  | nil => rw [hs] at hr; simp at hr
  | cons n st =>
    rw [hs] at hr h2 h1
    obtain ⟨h3, h4⟩ := h2
    have hd : n.obs.drop it.idx = n.obs[it.idx] :: n.obs.drop (it.idx + 1) :=
      List.drop_eq_getElem_cons h4
    simp only [hd, List.cons_append, List.cons.injEq] at hr
    refine ⟨by simp, ?_, ?_⟩
    · simp [List.getElem?_eq_getElem h4, hr.1]
    · simp only
      split
      · rename_i he
        have hst : ∀ m ∈ st, Tight k m := fun m hm => h1 m (by simp [hm])
        obtain ⟨g1, g2⟩ := settle_good hst (le_refl (Node.weightL st))
        refine ⟨_, rfl, g1, ?_⟩
        rw [g2, ← hr.2, he]
        simp
      · refine ⟨_, rfl, ⟨h1, h3, ?_⟩, hr.2⟩
        simp only
        omega

theorem emitsObj_of_good : ∀ (l : List Box) {it : ObjIter}, it.Good k → it.rem = l → EmitsObj it l
  | [], _, h, hr => .done (h.nil hr)
  | _ :: l, _, h, hr => by
    obtain ⟨h1, h2, it', h3, h4, h5⟩ := h.cons hr
    exact .step h1 h2 h3 (emitsObj_of_good l h4 h5)

theorem objBegin_good {s : IndexSet} (hs : SetOk k s) :
    (objBegin s.root).Good k ∧ (objBegin s.root).rem = s.ranges := by
  unfold objBegin IndexSet.ranges
  cases hr : s.root with
  | none => exact ⟨⟨by simp, rfl⟩, rfl⟩
  | some n =>
    have := settle_good (k := k) (st := [n]) (by simpa using hs.tight n hr) (fuel := n.weight)
      (by simp [Node.weightL])
    refine ⟨this.1, ?_⟩
    rw [this.2]
    simp [Node.objectsL]

theorem emitsPts_done {fuel : Nat} {r : ObjIter} (hr : r.atEnd = true) :
    PointIter.fetchNext fuel ⟨r, none, none⟩ = some ⟨r, none, none⟩ ∧
      EmitsPts fuel ⟨r, none, none⟩ [] := by
  refine ⟨?_, .done ?_⟩
  · cases fuel <;> simp [PointIter.fetchNext, PointIter.shouldProceed, hr]
  · simp [PointIter.atEnd, hr, samePt]

theorem emits_enum {b : Box} (hb : b.Valid) : Box.Emits b b.iterBegin (Props.enum b) := by
  obtain ⟨l, h1, h2, _⟩ := Props.C01_iteration b hb
  have : Box.Emits b b.iterBegin (Props.enum b) := by
    rw [Props.enum_eq_begin_after b hb.2]
    exact Props.emits_after b hb _ _ rfl (Props.inB_begin b hb.2)
  exact this

/-- The points of the current range, and then those of the others. -/
theorem emitsPts_of_good (fuel : Nat) (hf : 1 ≤ fuel) : ∀ (l : List Box) (r : ObjIter) (b : Box),
    r.Good k → r.rem = b :: l → ∀ (st : Box.Iter) (ps : List Point), Box.Emits b st ps →
    ∀ fuel', 1 ≤ fuel' →
    ∃ it, PointIter.fetchNext fuel' ⟨r, some st, some b.iterEnd⟩ = some it ∧
      EmitsPts fuel it (ps ++ enumL l) := by
  intro l
  induction l with
  | nil =>
    intro r b hg hrem st ps he
    obtain ⟨h1, h2, r', h3, h4, h5⟩ := hg.cons hrem
    induction he with
    | @done st hd =>
      intro fuel' hf'
      obtain ⟨fuel', rfl⟩ : ∃ n, fuel' = n + 1 := ⟨fuel' - 1, by omega⟩
      have hsp : PointIter.shouldProceed ⟨r, some st, some b.iterEnd⟩ = true := by
        simp only [PointIter.shouldProceed, h1, samePt, Option.map_some, hd]
        simp
      obtain ⟨e1, e2⟩ := emitsPts_done (fuel := fuel') (h4.nil h5)
      refine ⟨⟨r', none, none⟩, ?_, ?_⟩
      · rw [PointIter.fetchNext, if_pos hsp]
        simp only [h3, Option.bind_some, h4.nil h5, if_true]
        exact e1
      · exact (emitsPts_done (fuel := fuel) (h4.nil h5)).2
    | @step st ps hd _ ih =>
      intro fuel' hf'
      have hsp : PointIter.shouldProceed ⟨r, some st, some b.iterEnd⟩ = false := by
        simp only [PointIter.shouldProceed, h1, samePt, Option.map_some]
        simpa using hd
      refine ⟨⟨r, some st, some b.iterEnd⟩, ?_, ?_⟩
      · cases fuel' <;> simp [PointIter.fetchNext, hsp]
      · obtain ⟨it, i1, i2⟩ := ih fuel hf
        refine .step (it' := it) ?_ rfl ?_ i2
        · simp [PointIter.atEnd, h1]
        · simp only [PointIter.next, Option.bind_some, h2]
          exact i1
  | cons c l ihl =>
    intro r b hg hrem st ps he
    obtain ⟨h1, h2, r', h3, h4, h5⟩ := hg.cons hrem
    obtain ⟨h6, h7, _⟩ := h4.cons h5
    have hcv : c.Valid := by
      have : c ∈ r'.rem := by rw [h5]; simp
      unfold ObjIter.rem at this
      cases hs : r'.stack with
      | nil => rw [hs] at this; simp at this
      | cons n st =>
        rw [hs] at this
        obtain ⟨g1, g2⟩ := h4
        rw [hs] at g1
        rcases List.mem_append.1 this with hm | hm
        · exact ((AllNodes.self (g1 n (by simp))).obs c (List.mem_of_mem_drop hm)).1
        · rw [Node.mem_objectsL] at hm
          obtain ⟨m, hm1, hm2⟩ := hm
          exact (Covers.objects (g1 m (by simp [hm1])).covers hm2).1.1
    induction he with
    | @done st hd =>
      intro fuel' hf'
      obtain ⟨fuel', rfl⟩ : ∃ n, fuel' = n + 1 := ⟨fuel' - 1, by omega⟩
      have hsp : PointIter.shouldProceed ⟨r, some st, some b.iterEnd⟩ = true := by
        simp only [PointIter.shouldProceed, h1, samePt, Option.map_some, hd]
        simp
      have hne : PointIter.shouldProceed ⟨r', some c.iterBegin, some c.iterEnd⟩ = false := by
        have : c.iterBegin.cur ≠ c.iterEnd.cur := by
          intro hc
          have e := emits_enum hcv
          have e' := Props.C01_emits_unique e (.done hc)
          obtain ⟨p, hp⟩ := Box.exists_inB hcv.2
          have := Props.mem_enum.2 hp
          rw [e'] at this
          simp at this
        simp only [PointIter.shouldProceed, h6, samePt, Option.map_some]
        simpa using this
      obtain ⟨it, i1, i2⟩ := ihl r' c h4 h5 c.iterBegin (Props.enum c) (emits_enum hcv) fuel hf
      have hsame : it = ⟨r', some c.iterBegin, some c.iterEnd⟩ := by
        obtain ⟨fuel, rfl⟩ : ∃ n, fuel = n + 1 := ⟨fuel - 1, by omega⟩
        rw [PointIter.fetchNext, if_neg (by simp [hne])] at i1
        simpa using i1.symm
      refine ⟨it, ?_, ?_⟩
      · rw [PointIter.fetchNext, if_pos hsp, hsame]
        simp only [h3, Option.bind_some, h6, h7]
        cases fuel' <;> simp [PointIter.fetchNext, hne]
      · have : [] ++ enumL (c :: l) = Props.enum c ++ enumL l := rfl
        rw [this]
        exact i2
    | @step st ps hd _ ih =>
      intro fuel' hf'
      have hsp : PointIter.shouldProceed ⟨r, some st, some b.iterEnd⟩ = false := by
        simp only [PointIter.shouldProceed, h1, samePt, Option.map_some]
        simpa using hd
      refine ⟨⟨r, some st, some b.iterEnd⟩, ?_, ?_⟩
      · cases fuel' <;> simp [PointIter.fetchNext, hsp]
      · obtain ⟨it, i1, i2⟩ := ih fuel hf
        refine .step (it' := it) ?_ rfl ?_ i2
        · simp [PointIter.atEnd, h1]
        · simp only [PointIter.next, Option.bind_some, h2]
          exact i1

/-- The iteration over a set visits the points of its ranges, one range after the other. -/
theorem emitsPts_begin {s : IndexSet} (hs : SetOk k s) {fuel : Nat} (hf : 1 ≤ fuel) :
    ∃ it, pointBegin fuel s = some it ∧ EmitsPts fuel it (enumL s.ranges) := by
  obtain ⟨g, hrem⟩ := objBegin_good hs
  unfold pointBegin
  cases hr : s.ranges with
  | nil =>
    rw [hr] at hrem
    have h0 := g.nil hrem
    obtain ⟨e1, e2⟩ := emitsPts_done (fuel := fuel) h0
    rw [if_pos h0]
    exact ⟨_, e1, e2⟩
  | cons b l =>
    rw [hr] at hrem
    obtain ⟨h1, h2, _⟩ := g.cons hrem
    have hb : b.Valid := (ranges_ranked hs b (by rw [hr]; simp)).1
    rw [if_neg (by simp [h1]), h2]
    exact emitsPts_of_good fuel hf l _ b g hrem _ _ (emits_enum hb) fuel hf

end IndexSet
end Marco
