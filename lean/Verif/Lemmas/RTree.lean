import Verif.Spec.Tree
import Verif.Props.C03_Subtract

/-! Helper lemmas on spatial trees. -/

namespace Marco
open Spec

namespace Node

theorem eta (n : Node) : n = .mk n.id n.bd n.ch n.obs := by cases n; rfl

/-- Induction on subtrees. -/
theorem ind {P : Node → Prop} (h : ∀ n : Node, (∀ c ∈ n.ch, P c) → P n) : ∀ n, P n := by
  intro n
  induction hw : n.weight using Nat.strong_induction_on generalizing n with
  | _ w ih =>
    apply h
    intro c hc
    refine ih c.weight ?_ c rfl
    subst hw
    cases n with
    | mk i b ch obs =>
      simp only [Node.ch] at hc
      simp only [weight]
      have : ∀ l : List Node, c ∈ l → c.weight ≤ weightL l := by
        intro l
        induction l with
        | nil => simp
        | cons a as ih =>
          intro hm
          simp only [weightL]
          rcases List.mem_cons.1 hm with rfl | hm
          · omega
          · have := ih hm; omega
      have := this _ hc
      omega

theorem weight_eq (n : Node) : n.weight = 1 + weightL n.ch := by cases n; simp [weight, ch]

theorem weight_pos (n : Node) : 0 < n.weight := by rw [weight_eq]; omega

theorem weightL_append (a b : List Node) : weightL (a ++ b) = weightL a + weightL b := by
  induction a with
  | nil => simp [weightL]
  | cons x xs ih => simp [weightL, ih]; omega

theorem weightL_reverse (a : List Node) : weightL a.reverse = weightL a := by
  induction a with
  | nil => simp
  | cons x xs ih => simp [weightL_append, weightL, ih]; omega

theorem weightL_filter_le (p : Node → Bool) (a : List Node) : weightL (a.filter p) ≤ weightL a := by
  induction a with
  | nil => simp
  | cons x xs ih =>
    rw [List.filter_cons]
    split_ifs <;> simp [weightL] <;> omega

theorem mem_objectsL (l : List Node) (o : Box) : o ∈ objectsL l ↔ ∃ c ∈ l, o ∈ c.objects := by
  induction l with
  | nil => simp [objectsL]
  | cons a as ih => simp [objectsL, ih]

theorem objectsL_eq_flatMap (l : List Node) : objectsL l = l.flatMap objects := by
  induction l with
  | nil => simp [objectsL]
  | cons a as ih => simp [objectsL, ih]

theorem objects_leaf {n : Node} (h : n.ch = []) : n.objects = n.obs := by
  cases n with | mk i b ch obs => simp only [Node.ch] at h; subst h; simp [objects, Node.obs]

theorem objects_inner {n : Node} (h : n.ch ≠ []) : n.objects = objectsL n.ch := by
  cases n with
  | mk i b ch obs =>
    simp only [Node.ch] at h
    cases ch with
    | nil => exact absurd rfl h
    | cons c cs => simp [objects, Node.ch]

/-- With exclusive children/objects, the objects of a node are its own plus those of its
children. -/
theorem mem_objects {n : Node} (h : n.ch = [] ∨ n.obs = []) (o : Box) :
    o ∈ n.objects ↔ o ∈ n.obs ∨ ∃ c ∈ n.ch, o ∈ c.objects := by
  by_cases hc : n.ch = []
  · rw [objects_leaf hc]; simp [hc]
  · rw [objects_inner hc, mem_objectsL]
    rcases h with h | h
    · exact absurd h hc
    · simp [h]

end Node

theorem Spec.AllNodes.self {P : Node → Prop} {n : Node} (h : AllNodes P n) : P n := by
  cases h; assumption

theorem Spec.AllNodes.child {P : Node → Prop} {n c : Node} (h : AllNodes P n) (hc : c ∈ n.ch) :
    AllNodes P c := by
  cases h with | mk _ h2 => exact h2 c hc

theorem Spec.AllNodes.imp {P Q : Node → Prop} (hPQ : ∀ n, P n → Q n) {n : Node} (h : AllNodes P n) :
    AllNodes Q n := by
  induction n using Node.ind with
  | _ n ih => exact .mk (hPQ _ h.self) fun c hc => ih c hc (h.child hc)

theorem allNodes_iff {P : Node → Prop} {n : Node} :
    AllNodes P n ↔ P n ∧ ∀ c ∈ n.ch, AllNodes P c :=
  ⟨fun h => ⟨h.self, fun _ hc => h.child hc⟩, fun h => .mk h.1 h.2⟩

namespace RTree

theorem overlaps_iff' {k : Nat} {a b : Box} (ha : Ranked k a) (hb : Ranked k b) :
    Box.overlaps a b = true ↔ ∃ p, InB p a ∧ InB p b :=
  Props.overlaps_iff a b (ha.2.trans hb.2.symm) ha.1.2 hb.1.2

/-- Every object of a covered subtree is a box of the right rank within the boundary. -/
theorem Covers.objects {k : Nat} {n : Node} (h : Covers k n) {o : Box} (ho : o ∈ n.objects) :
    Ranked k o ∧ SubB o n.bd := by
  induction n using Node.ind with
  | _ n ih =>
    have hn := AllNodes.self h
    rcases (Node.mem_objects hn.excl o).1 ho with h1 | ⟨c, hc, h1⟩
    · exact hn.obs o h1
    · obtain ⟨h2, h3⟩ := ih c hc (AllNodes.child h hc) h1
      exact ⟨h2, fun p hp => hn.ch c hc p (h3 p hp)⟩

/-- The stack search visits exactly the overlapping objects of the subtrees on the stack. -/
theorem mem_visitLoop {k : Nat} {q : Box} (hq : Ranked k q) :
    ∀ (fuel : Nat) (st : List Node), Node.weightL st ≤ fuel →
    (∀ n ∈ st, Covers k n) →
    ∀ o, o ∈ visitLoop q fuel st ↔ ∃ n ∈ st, o ∈ n.objects ∧ o.overlaps q = true := by
  intro fuel
  induction fuel with
  | zero =>
    intro st hf hst o
    cases st with
    | nil => simp [visitLoop]
    | cons n st =>
      simp only [Node.weightL] at hf
      have := n.weight_pos
      omega
  | succ fuel ih =>
    intro st hf hst o
    cases st with
    | nil => simp [visitLoop]
    | cons n st =>
      have hn := hst n (by simp)
      have hst' : ∀ m ∈ (n.ch.filter (fun c => c.bd.overlaps q)).reverse ++ st, Covers k m := by
        intro m hm
        simp only [List.mem_append, List.mem_reverse, List.mem_filter] at hm
        rcases hm with ⟨hm, _⟩ | hm
        · exact AllNodes.child hn hm
        · exact hst m (by simp [hm])
      have hw : Node.weightL ((n.ch.filter (fun c => c.bd.overlaps q)).reverse ++ st) ≤ fuel := by
        rw [Node.weightL_append, Node.weightL_reverse]
        have := Node.weightL_filter_le (fun c => c.bd.overlaps q) n.ch
        simp only [Node.weightL, Node.weight_eq] at hf
        omega
      rw [visitLoop, List.mem_append, ih _ hw hst' o]
      have hx := AllNodes.self hn
      constructor
      · rintro (h1 | ⟨m, hm, h1, h2⟩)
        · obtain ⟨h1, h2⟩ := List.mem_filter.1 h1
          exact ⟨n, by simp, (Node.mem_objects hx.excl o).2 (Or.inl h1), h2⟩
        · simp only [List.mem_append, List.mem_reverse, List.mem_filter] at hm
          rcases hm with ⟨hm, _⟩ | hm
          · exact ⟨n, by simp, (Node.mem_objects hx.excl o).2 (Or.inr ⟨m, hm, h1⟩), h2⟩
          · exact ⟨m, by simp [hm], h1, h2⟩
      · rintro ⟨m, hm, h1, h2⟩
        rcases List.mem_cons.1 hm with rfl | hm
        · rcases (Node.mem_objects hx.excl o).1 h1 with h1 | ⟨c, hc, h1⟩
          · exact Or.inl (List.mem_filter.2 ⟨h1, h2⟩)
          · right
            refine ⟨c, ?_, h1, h2⟩
            simp only [List.mem_append, List.mem_reverse, List.mem_filter]
            left
            refine ⟨hc, ?_⟩
            have hc' := AllNodes.child hn hc
            obtain ⟨hor, hos⟩ := Covers.objects hc' h1
            rw [overlaps_iff' hor hq] at h2
            rw [overlaps_iff' hc'.self.bd hq]
            obtain ⟨p, hp1, hp2⟩ := h2
            exact ⟨p, hos p hp1, hp2⟩
        · exact Or.inr ⟨m, by simp [hm], h1, h2⟩

/-- The search from a root finds exactly the stored objects overlapping the query. -/
theorem mem_visit {k : Nat} {q : Box} {n : Node} (hq : Ranked k q) (hn : Covers k n) (o : Box) :
    o ∈ visit q n ↔ o ∈ n.objects ∧ o.overlaps q = true := by
  unfold visit
  split_ifs with h
  · rw [mem_visitLoop hq _ _ (by simp [Node.weightL]) (by simpa using hn)]
    simp
  · constructor
    · simp
    · rintro ⟨h1, h2⟩
      exfalso
      apply h
      obtain ⟨hor, hos⟩ := Covers.objects hn h1
      rw [overlaps_iff' hor hq] at h2
      rw [overlaps_iff' (AllNodes.self hn).bd hq]
      obtain ⟨p, hp1, hp2⟩ := h2
      exact ⟨p, hos p hp1, hp2⟩

/-- `walkOverlappingObjects` finds exactly the stored objects overlapping the query. -/
theorem mem_walkLoop {k : Nat} {q : Box} (hq : Ranked k q) :
    ∀ (fuel : Nat) (st : List Node), Node.weightL st ≤ fuel →
    (∀ n ∈ st, Covers k n) →
    ∀ o, o ∈ walkLoop q fuel st ↔ ∃ n ∈ st, o ∈ n.objects ∧ o.overlaps q = true := by
  intro fuel
  induction fuel with
  | zero =>
    intro st hf hst o
    cases st with
    | nil => simp [walkLoop]
    | cons n st =>
      simp only [Node.weightL] at hf
      have := n.weight_pos
      omega
  | succ fuel ih =>
    intro st hf hst o
    cases st with
    | nil => simp [walkLoop]
    | cons n st =>
      have hn := hst n (by simp)
      have hst' : ∀ m ∈ n.ch ++ st, Covers k m := by
        intro m hm
        rcases List.mem_append.1 hm with hm | hm
        · exact AllNodes.child hn hm
        · exact hst m (by simp [hm])
      have hw : Node.weightL (n.ch ++ st) ≤ fuel := by
        rw [Node.weightL_append]
        simp only [Node.weightL, Node.weight_eq] at hf
        omega
      rw [walkLoop, List.mem_append, ih _ hw hst' o]
      have hx := AllNodes.self hn
      constructor
      · rintro (h1 | ⟨m, hm, h1, h2⟩)
        · split_ifs at h1 with hc
          · obtain ⟨h1, h2⟩ := List.mem_filter.1 h1
            exact ⟨n, by simp, (Node.mem_objects hx.excl o).2 (Or.inl h1), h2⟩
          · simp at h1
        · rcases List.mem_append.1 hm with hm | hm
          · exact ⟨n, by simp, (Node.mem_objects hx.excl o).2 (Or.inr ⟨m, hm, h1⟩), h2⟩
          · exact ⟨m, by simp [hm], h1, h2⟩
      · rintro ⟨m, hm, h1, h2⟩
        rcases List.mem_cons.1 hm with rfl | hm
        · by_cases hl : m.ch = []
          · left
            have hov : m.bd.overlaps q = true := by
              obtain ⟨hor, hos⟩ := Covers.objects hn h1
              rw [overlaps_iff' hor hq] at h2
              rw [overlaps_iff' hx.bd hq]
              obtain ⟨p, hp1, hp2⟩ := h2
              exact ⟨p, hos p hp1, hp2⟩
            rw [Node.objects_leaf hl] at h1
            simp [hov, Node.isLeaf, hl, h1, h2]
          · right
            rw [Node.objects_inner hl, Node.mem_objectsL] at h1
            obtain ⟨c, hc, h1⟩ := h1
            exact ⟨c, by simp [hc], h1, h2⟩
        · exact Or.inr ⟨m, by simp [hm], h1, h2⟩

/-- Weight of a stack of pairs. -/
def pairsWeight (st : List (Node × Node)) : Nat :=
  (st.map fun p => p.1.weight * p.2.weight).sum

theorem pairsWeight_append (a b : List (Node × Node)) :
    pairsWeight (a ++ b) = pairsWeight a + pairsWeight b := by
  simp [pairsWeight]

theorem pairsWeight_reverse (a : List (Node × Node)) : pairsWeight a.reverse = pairsWeight a := by
  simp [pairsWeight]

theorem pairsWeight_left (r : Node) (l : List Node) :
    pairsWeight (l.map fun c => (c, r)) = Node.weightL l * r.weight := by
  induction l with
  | nil => simp [pairsWeight, Node.weightL]
  | cons a as ih =>
    simp only [pairsWeight, List.map_cons, List.map_map, List.sum_cons, Node.weightL] at *
    rw [ih, Nat.add_mul]

theorem pairsWeight_right (n : Node) (l : List Node) :
    pairsWeight (l.map fun c => (n, c)) = n.weight * Node.weightL l := by
  induction l with
  | nil => simp [pairsWeight, Node.weightL]
  | cons a as ih =>
    simp only [pairsWeight, List.map_cons, List.map_map, List.sum_cons, Node.weightL] at *
    rw [ih, Nat.mul_add]

theorem mem_visitPairsLoop {k : Nat} :
    ∀ (fuel : Nat) (st : List (Node × Node)), pairsWeight st ≤ fuel →
    (∀ p ∈ st, Covers k p.1 ∧ Covers k p.2) →
    ∀ a b, (a, b) ∈ visitPairsLoop fuel st ↔
      ∃ p ∈ st, a ∈ p.1.objects ∧ b ∈ p.2.objects ∧ a.overlaps b = true := by
  intro fuel
  induction fuel with
  | zero =>
    intro st hf hst a b
    cases st with
    | nil => simp [visitPairsLoop]
    | cons p st =>
      simp only [pairsWeight, List.map_cons, List.sum_cons] at hf
      have := Nat.mul_pos p.1.weight_pos p.2.weight_pos
      omega
  | succ fuel ih =>
    intro st hf hst a b
    cases st with
    | nil => simp [visitPairsLoop]
    | cons p st =>
      obtain ⟨l, r⟩ := p
      obtain ⟨hl, hr⟩ := hst (l, r) (by simp)
      have hlx := AllNodes.self hl
      have hrx := AllNodes.self hr
      have hpos := Nat.mul_pos l.weight_pos r.weight_pos
      have hf' : l.weight * r.weight + pairsWeight st ≤ fuel + 1 := by
        simpa [pairsWeight] using hf
      -- if two descendants share a point so do the boundaries
      have share : ∀ {n m : Node}, Covers k n → Covers k m → ∀ {x y : Box}, x ∈ n.objects →
          y ∈ m.objects → x.overlaps y = true → n.bd.overlaps m.bd = true := by
        intro n m hn hm x y hx hy hxy
        obtain ⟨h1, h2⟩ := Covers.objects hn hx
        obtain ⟨h3, h4⟩ := Covers.objects hm hy
        rw [overlaps_iff' h1 h3] at hxy
        rw [overlaps_iff' hn.self.bd hm.self.bd]
        obtain ⟨p, hp1, hp2⟩ := hxy
        exact ⟨p, h2 p hp1, h4 p hp2⟩
      by_cases hll : l.ch = []
      · have hll' : l.isLeaf = true := by simp [Node.isLeaf, hll]
        by_cases hrl : r.ch = []
        · have hrl' : r.isLeaf = true := by simp [Node.isLeaf, hrl]
          rw [visitPairsLoop]
          simp only [hll', hrl', if_true, List.mem_append]
          rw [ih st (by omega) (fun p hp => hst p (by simp [hp]))]
          simp only [List.mem_flatMap, List.mem_map, List.mem_filter, Prod.mk.injEq,
            List.mem_cons, exists_eq_or_imp, Node.objects_leaf hll, Node.objects_leaf hrl]
          constructor
          · rintro (⟨x, hx, y, ⟨hy, hxy⟩, rfl, rfl⟩ | h)
            · exact Or.inl ⟨hx, hy, hxy⟩
            · exact Or.inr h
          · rintro (⟨hx, hy, hxy⟩ | h)
            · exact Or.inl ⟨a, hx, b, ⟨hy, hxy⟩, rfl, rfl⟩
            · exact Or.inr h
        · have hrl' : r.isLeaf = false := by simp [Node.isLeaf, hrl]
          rw [visitPairsLoop]
          simp only [hll', hrl', if_true, Bool.false_eq_true, if_false]
          rw [ih]
          · constructor
            · rintro ⟨p, hp, h1, h2, h3⟩
              simp only [List.mem_append, List.mem_reverse, List.mem_map, List.mem_filter] at hp
              rcases hp with ⟨c, ⟨hc, _⟩, rfl⟩ | hp
              · refine ⟨(l, r), by simp, h1, ?_, h3⟩
                exact (Node.mem_objects hrx.excl b).2 (Or.inr ⟨c, hc, h2⟩)
              · exact ⟨p, by simp [hp], h1, h2, h3⟩
            · rintro ⟨p, hp, h1, h2, h3⟩
              rcases List.mem_cons.1 hp with rfl | hp
              · simp only [Node.objects_inner hrl, Node.mem_objectsL] at h2
                obtain ⟨c, hc, h2⟩ := h2
                refine ⟨(l, c), ?_, h1, h2, h3⟩
                simp only [List.mem_append, List.mem_reverse, List.mem_map, List.mem_filter]
                left
                refine ⟨c, ⟨hc, ?_⟩, rfl⟩
                have := share hl (AllNodes.child hr hc) h1 h2 h3
                rw [overlaps_iff' hlx.bd (AllNodes.child hr hc).self.bd] at this
                rw [overlaps_iff' (AllNodes.child hr hc).self.bd hlx.bd]
                obtain ⟨p, hp⟩ := this
                exact ⟨p, hp.2, hp.1⟩
              · exact ⟨p, by simp [hp], h1, h2, h3⟩
          · rw [pairsWeight_append, pairsWeight_reverse, pairsWeight_right]
            have h1 := Node.weightL_filter_le (fun c => c.bd.overlaps l.bd) r.ch
            have h2 : l.weight * Node.weightL (r.ch.filter (fun c => c.bd.overlaps l.bd)) <
                l.weight * r.weight := by
              apply Nat.mul_lt_mul_of_pos_left _ l.weight_pos
              rw [r.weight_eq]; omega
            omega
          · intro p hp
            simp only [List.mem_append, List.mem_reverse, List.mem_map, List.mem_filter] at hp
            rcases hp with ⟨c, ⟨hc, _⟩, rfl⟩ | hp
            · exact ⟨hl, AllNodes.child hr hc⟩
            · exact hst p (by simp [hp])
      · have hll' : l.isLeaf = false := by simp [Node.isLeaf, hll]
        rw [visitPairsLoop]
        simp only [hll', Bool.false_eq_true, if_false]
        rw [ih]
        · constructor
          · rintro ⟨p, hp, h1, h2, h3⟩
            simp only [List.mem_append, List.mem_reverse, List.mem_map, List.mem_filter] at hp
            rcases hp with ⟨c, ⟨hc, _⟩, rfl⟩ | hp
            · exact ⟨(l, r), by simp, (Node.mem_objects hlx.excl a).2 (Or.inr ⟨c, hc, h1⟩), h2, h3⟩
            · exact ⟨p, by simp [hp], h1, h2, h3⟩
          · rintro ⟨p, hp, h1, h2, h3⟩
            rcases List.mem_cons.1 hp with rfl | hp
            · simp only [Node.objects_inner hll, Node.mem_objectsL] at h1
              obtain ⟨c, hc, h1⟩ := h1
              refine ⟨(c, r), ?_, h1, h2, h3⟩
              simp only [List.mem_append, List.mem_reverse, List.mem_map, List.mem_filter]
              left
              exact ⟨c, ⟨hc, share (AllNodes.child hl hc) hr h1 h2 h3⟩, rfl⟩
            · exact ⟨p, by simp [hp], h1, h2, h3⟩
        · rw [pairsWeight_append, pairsWeight_reverse, pairsWeight_left]
          have h1 := Node.weightL_filter_le (fun c => c.bd.overlaps r.bd) l.ch
          have h2 : Node.weightL (l.ch.filter (fun c => c.bd.overlaps r.bd)) * r.weight <
              l.weight * r.weight := by
            apply Nat.mul_lt_mul_of_pos_right _ r.weight_pos
            rw [l.weight_eq]; omega
          omega
        · intro p hp
          simp only [List.mem_append, List.mem_reverse, List.mem_map, List.mem_filter] at hp
          rcases hp with ⟨c, ⟨hc, _⟩, rfl⟩ | hp
          · exact ⟨AllNodes.child hl hc, hr⟩
          · exact hst p (by simp [hp])

theorem mem_visitPairs {k : Nat} {l r : Node} (hl : Covers k l) (hr : Covers k r) (a b : Box) :
    (a, b) ∈ visitPairs l r ↔ a ∈ l.objects ∧ b ∈ r.objects ∧ a.overlaps b = true := by
  unfold visitPairs
  split_ifs with h
  · rw [mem_visitPairsLoop (k := k) _ _ (by simp [pairsWeight]) (by simp [hl, hr])]
    simp
  · constructor
    · simp
    · rintro ⟨h1, h2, h3⟩
      exfalso
      apply h
      obtain ⟨hor, hos⟩ := Covers.objects hl h1
      obtain ⟨hor', hos'⟩ := Covers.objects hr h2
      rw [overlaps_iff' hor hor'] at h3
      rw [overlaps_iff' (AllNodes.self hl).bd (AllNodes.self hr).bd]
      obtain ⟨p, hp1, hp2⟩ := h3
      exact ⟨p, hos p hp1, hos' p hp2⟩

end RTree
end Marco
