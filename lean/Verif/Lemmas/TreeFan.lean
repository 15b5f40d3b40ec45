import Verif.Spec.TreeUpdate
import Verif.Lemmas.TreeCollapse

/-! Helper lemmas on the number of entries of the nodes and on the absence of undefined behaviour. -/

namespace Marco
namespace RTree
open Spec
open IndexSet (SameSet)

theorem _root_.Marco.Spec.AnyChoice.sound {C : Cfg} (h : AnyChoice C) : C.Sound where
  obs := by
    intro l a b hl hs
    obtain ⟨a', b', h1, h2, _⟩ := h.obs l hl
    rw [hs] at h1
    simp only [Option.some.injEq, Prod.mk.injEq] at h1
    obtain ⟨rfl, rfl⟩ := h1
    exact h2
  ch := by
    intro l a b hl hs
    obtain ⟨a', b', h1, h2, _⟩ := h.ch l hl
    rw [hs] at h1
    simp only [Option.some.injEq, Prod.mk.injEq] at h1
    obtain ⟨rfl, rfl⟩ := h1
    exact h2

/-- All the nodes of a subtree have an admissible number of entries. -/
def FanAll (mn mx : Nat) (n : Node) : Prop := AllNodes (fun m => mn ≤ m.fanOut ∧ m.fanOut ≤ mx) n

/-- The same for the node at a position, where the root may have fewer. -/
def FanN (mn mx : Nat) (ctx : Ctx) (n : Node) : Prop :=
  n.fanOut ≤ mx ∧ (ctx ≠ [] → mn ≤ n.fanOut) ∧ ∀ c ∈ n.ch, FanAll mn mx c

/-- The same for the path to a node. -/
def CtxFan (mn mx : Nat) : Ctx → Prop
  | [] => True
  | f :: ctx => ((∀ c ∈ f.left, FanAll mn mx c) ∧ (∀ c ∈ f.right, FanAll mn mx c) ∧
      f.left.length + 1 + f.right.length ≤ mx ∧
      (ctx ≠ [] → mn ≤ f.left.length + 1 + f.right.length)) ∧ CtxFan mn mx ctx

variable {mn mx : Nat}

theorem fanOut_inner {n : Node} (h : n.ch ≠ []) : n.fanOut = n.ch.length := by
  unfold Node.fanOut
  rw [if_neg (by simpa [Node.isLeaf] using h)]

theorem fanOut_leaf {n : Node} (h : n.ch = []) : n.fanOut = n.obs.length := by
  unfold Node.fanOut
  rw [if_pos (by simpa [Node.isLeaf] using h)]

theorem FanN.all {f : Frame} {ctx : Ctx} {n : Node} (h : FanN mn mx (f :: ctx) n) : FanAll mn mx n :=
  .mk ⟨h.2.1 (by simp), h.1⟩ h.2.2

theorem FanN.congr {ctx : Ctx} {n n' : Node} (h : FanN mn mx ctx n) (h1 : n'.ch = n.ch)
    (h2 : n'.obs = n.obs) : FanN mn mx ctx n' := by
  have : n'.fanOut = n.fanOut := by simp [Node.fanOut, Node.isLeaf, h1, h2]
  unfold FanN
  rw [this, h1]
  exact h

theorem CtxFan.fill {f : Frame} {ctx : Ctx} {n : Node} (h : CtxFan mn mx (f :: ctx))
    (hn : FanAll mn mx n) : FanN mn mx ctx (f.fill n) := by
  obtain ⟨⟨h1, h2, h3, h4⟩, _⟩ := h
  have hf : (f.fill n).fanOut = f.left.length + 1 + f.right.length := by
    rw [fanOut_inner (by simp [Frame.fill, Node.ch_mk])]
    simp only [Frame.fill, Node.ch_mk, List.length_append, List.length_cons]
    omega
  refine ⟨by omega, fun hc => by have := h4 hc; omega, ?_⟩
  intro c hc
  simp only [Frame.fill, Node.ch_mk, List.mem_append, List.mem_cons] at hc
  rcases hc with hc | rfl | hc
  · exact h1 c hc
  · exact hn
  · exact h2 c hc

theorem plug_fan : ∀ {ctx : Ctx} {n : Node}, CtxFan mn mx ctx → FanN mn mx ctx n →
    FanN mn mx [] (plug ctx n)
  | [], _, _, h => h
  | f :: ctx, n, hc, h => by
    rw [plug]
    exact plug_fan hc.2 (hc.fill h.all)

theorem updateBoundaries_fan : ∀ {ctx : Ctx} {n t : Node}, CtxFan mn mx ctx → FanN mn mx ctx n →
    updateBoundaries ctx n = .ok t → FanN mn mx [] t
  | ctx, n, t, hc, hn, hu => by
    unfold updateBoundaries at hu
    split at hu
    · simp at hu
    · rename_i b hb
      split at hu
      · simp only [Except.ok.injEq] at hu
        subst hu
        exact plug_fan hc hn
      · split at hu
        · simp only [Except.ok.injEq] at hu
          subst hu
          exact hn.congr rfl rfl
        · rename_i _ f ctx
          exact updateBoundaries_fan (ctx := ctx) (n := f.fill (.mk n.id b n.ch n.obs)) hc.2
            (hc.fill (FanN.congr (n' := .mk n.id b n.ch n.obs) hn rfl rfl).all) hu

theorem mkNode_ok {i : Nat} {ch : List Node} {obs : List Box} (h : ch ≠ [] ∨ obs ≠ []) :
    ∃ x, mkNode i ch obs = some x ∧ x.ch = ch ∧ x.obs = obs := by
  unfold mkNode
  obtain ⟨b, hb⟩ := computeBoundary_isSome (n := .mk i [] ch obs) h
  rw [hb]
  exact ⟨_, rfl, rfl, rfl⟩

theorem splitNode_ok {C : Cfg} (hC : AnyChoice C) {i1 i2 : Nat} {n : Node} (hf : C.mx < n.fanOut) :
    ∃ a b, splitNode C i1 i2 n = .ok (a, b) ∧ C.mn ≤ a.fanOut ∧ C.mn ≤ b.fanOut ∧
      a.fanOut + b.fanOut = n.fanOut ∧ (∀ c ∈ a.ch, c ∈ n.ch) ∧ ∀ c ∈ b.ch, c ∈ n.ch := by
  have hmn := hC.mn
  unfold splitNode
  by_cases hl : n.isLeaf = true
  · rw [if_pos hl]
    have hch : n.ch = [] := by simpa [Node.isLeaf] using hl
    rw [fanOut_leaf hch] at hf ⊢
    obtain ⟨a, b, h1, h2, h3, h4⟩ := hC.obs n.obs hf
    obtain ⟨x, hx, x1, x2⟩ := mkNode_ok (i := i1) (ch := []) (obs := a)
      (.inr (by intro he; rw [he] at h3; simp at h3; omega))
    obtain ⟨y, hy, y1, y2⟩ := mkNode_ok (i := i2) (ch := []) (obs := b)
      (.inr (by intro he; rw [he] at h4; simp at h4; omega))
    have hlen := h2.length_eq
    rw [List.length_append] at hlen
    refine ⟨x, y, ?_, ?_, ?_, ?_, ?_, ?_⟩
    · rw [h1]; simp only [orUb, bind, Except.bind]; rw [hx, hy]
    · rw [fanOut_leaf x1, x2]; exact h3
    · rw [fanOut_leaf y1, y2]; exact h4
    · rw [fanOut_leaf x1, fanOut_leaf y1, x2, y2]; exact hlen
    · rw [x1]; simp
    · rw [y1]; simp
  · rw [if_neg hl]
    have hch : n.ch ≠ [] := by simpa [Node.isLeaf] using hl
    rw [fanOut_inner hch] at hf ⊢
    obtain ⟨a, b, h1, h2, h3, h4⟩ := hC.ch n.ch hf
    have ha : a ≠ [] := by intro he; rw [he] at h3; simp at h3; omega
    have hb : b ≠ [] := by intro he; rw [he] at h4; simp at h4; omega
    obtain ⟨x, hx, x1, x2⟩ := mkNode_ok (i := i1) (ch := a) (obs := []) (.inl ha)
    obtain ⟨y, hy, y1, y2⟩ := mkNode_ok (i := i2) (ch := b) (obs := []) (.inl hb)
    have hlen := h2.length_eq
    rw [List.length_append] at hlen
    refine ⟨x, y, ?_, ?_, ?_, ?_, ?_, ?_⟩
    · rw [h1]; simp only [orUb, bind, Except.bind]; rw [hx, hy]
    · rw [fanOut_inner (by rw [x1]; exact ha), x1]; exact h3
    · rw [fanOut_inner (by rw [y1]; exact hb), y1]; exact h4
    · rw [fanOut_inner (by rw [x1]; exact ha), fanOut_inner (by rw [y1]; exact hb), x1, y1]; exact hlen
    · rw [x1]; exact fun c hc => h2.mem_iff.1 (by simp [hc])
    · rw [y1]; exact fun c hc => h2.mem_iff.1 (by simp [hc])

theorem except_bind_of_ok {ε α β : Type} {x : Except ε α} {f : α → Except ε β} {a : α}
    (h : x = .ok a) : (x >>= f) = f a := by rw [h]; rfl

/-- A split never fails. -/
theorem splitUp_ok {C : Cfg} (hC : AnyChoice C) : ∀ {ctx : Ctx} {next : Nat} {n : Node},
    (n.ch ≠ [] ∨ n.obs ≠ []) → ∃ r, splitUp C next ctx n = .ok r
  | [], next, n, hn => by
    rw [splitUp]
    split
    · rename_i hf
      obtain ⟨a, b, h1, _⟩ := splitNode_ok hC (i1 := next) (i2 := next + 1) hf
      rw [except_bind_of_ok h1]
      exact ⟨_, rfl⟩
    · exact ⟨_, rfl⟩
  | f :: ctx, next, n, hn => by
    rw [splitUp]
    split
    · rename_i hf
      obtain ⟨a, b, h1, _⟩ := splitNode_ok hC (i1 := n.id) (i2 := next) hf
      rw [except_bind_of_ok h1]
      simp only
      split
      · obtain ⟨bd, hb⟩ := computeBoundary_isSome
          (n := .mk f.id f.bd (f.left ++ a :: (f.right ++ [b])) f.obs) (.inl (by simp [Node.ch_mk]))
        rw [except_bind_of_ok (recalc_ok.2 ⟨bd, hb, rfl⟩)]
        exact splitUp_ok hC (.inl (by simp [Node.ch_mk]))
      · rw [except_bind_of_ok rfl]
        exact splitUp_ok hC (.inl (by simp [Node.ch_mk]))
    · obtain ⟨t, ht⟩ := updateBoundaries_ok (ctx := ctx) (n := f.fill n) (.inl (by simp [Frame.fill, Node.ch_mk]))
      rw [except_bind_of_ok ht]
      exact ⟨_, rfl⟩

theorem splitUp_fan {C : Cfg} (hC : AnyChoice C) : ∀ {ctx : Ctx} {next next' : Nat} {n t : Node},
    CtxFan C.mn C.mx ctx → n.fanOut ≤ C.mx + 1 → (ctx ≠ [] → C.mn ≤ n.fanOut) →
    (∀ c ∈ n.ch, FanAll C.mn C.mx c) → splitUp C next ctx n = .ok (t, next') → FanN C.mn C.mx [] t
  | [], next, next', n, t, hc, h1, h2, h3, hs => by
    have hmn := hC.mn
    have hmx := hC.mx
    rw [splitUp] at hs
    split at hs
    · rename_i hf
      obtain ⟨a, b, s1, s2, s3, s4, s5, s6⟩ := splitNode_ok hC (i1 := next) (i2 := next + 1) hf
      rw [except_bind_of_ok s1] at hs
      simp only [Except.ok.injEq, Prod.mk.injEq] at hs
      obtain ⟨rfl, rfl⟩ := hs
      refine ⟨?_, fun hh => absurd rfl hh, ?_⟩
      · rw [fanOut_inner (by simp [Node.ch_mk])]; simp [Node.ch_mk]; omega
      · intro c hc
        simp only [Node.ch_mk, List.mem_cons, List.not_mem_nil, or_false] at hc
        rcases hc with rfl | rfl
        · exact .mk ⟨s2, by omega⟩ (fun c hc => h3 c (s5 c hc))
        · exact .mk ⟨s3, by omega⟩ (fun c hc => h3 c (s6 c hc))
    · simp only [Except.ok.injEq, Prod.mk.injEq] at hs
      obtain ⟨rfl, rfl⟩ := hs
      exact ⟨by omega, fun hh => absurd rfl hh, h3⟩
  | f :: ctx, next, next', n, t, hc, h1, h2, h3, hs => by
    have hmn := hC.mn
    have hmx := hC.mx
    rw [splitUp] at hs
    split at hs
    · rename_i hf
      obtain ⟨a, b, s1, s2, s3, s4, s5, s6⟩ := splitNode_ok hC (i1 := n.id) (i2 := next) hf
      rw [except_bind_of_ok s1] at hs
      obtain ⟨⟨c1, c2, c3, c4⟩, c5⟩ := hc
      have ha : FanAll C.mn C.mx a := .mk ⟨s2, by omega⟩ (fun c hc => h3 c (s5 c hc))
      have hb : FanAll C.mn C.mx b := .mk ⟨s3, by omega⟩ (fun c hc => h3 c (s6 c hc))
      have hall : ∀ bd, ∀ c ∈ (Node.mk f.id bd (f.left ++ a :: (f.right ++ [b])) f.obs).ch,
          FanAll C.mn C.mx c := by
        intro bd c hc
        simp only [Node.ch_mk, List.mem_append, List.mem_cons, List.not_mem_nil, or_false] at hc
        rcases hc with hc | rfl | hc | rfl
        · exact c1 c hc
        · exact ha
        · exact c2 c hc
        · exact hb
      have hfan : ∀ bd, (Node.mk f.id bd (f.left ++ a :: (f.right ++ [b])) f.obs).fanOut =
          f.left.length + 2 + f.right.length := by
        intro bd
        rw [fanOut_inner (by simp [Node.ch_mk])]
        simp only [Node.ch_mk, List.length_append, List.length_cons, List.length_nil]
        omega
      simp only at hs
      split at hs
      · rw [except_bind_ok] at hs
        obtain ⟨p', hp, hs⟩ := hs
        obtain ⟨bd, _, rfl⟩ := recalc_ok.1 hp
        exact splitUp_fan hC (ctx := ctx) c5 (by rw [hfan]; omega)
          (fun hh => by rw [hfan]; have := c4 hh; omega) (hall _) hs
      · rw [except_bind_of_ok rfl] at hs
        exact splitUp_fan hC (ctx := ctx) c5 (by rw [hfan]; omega)
          (fun hh => by rw [hfan]; have := c4 hh; omega) (hall _) hs
    · rw [except_bind_ok] at hs
      obtain ⟨t', h4, h5⟩ := hs
      simp only [Except.ok.injEq, Prod.mk.injEq] at h5
      obtain ⟨rfl, rfl⟩ := h5
      exact updateBoundaries_fan hc.2 (hc.fill (.mk ⟨h2 (by simp), by omega⟩ h3)) h4

theorem focus_ok {α : Type} {l : List α} {i : Nat} (h : i < l.length) :
    ∃ a x b, focus l i = some (a, x, b) := by
  unfold focus
  split
  · rename_i hd
    have := congrArg List.length hd
    rw [List.length_drop] at this
    simp at this
    omega
  · exact ⟨_, _, _, rfl⟩

theorem weight_mem {l : List Node} {c : Node} (h : c ∈ l) : c.weight ≤ Node.weightL l := by
  induction l with
  | nil => simp at h
  | cons a l ih =>
    rw [Node.weightL]
    rcases List.mem_cons.1 h with rfl | h
    · omega
    · have := ih h; omega

/-- The choice of a leaf never fails. -/
theorem chooseLeaf_ok {C : Cfg} (hC : AnyChoice C) {b : Box} : ∀ {fuel : Nat} {ctx : Ctx} {n : Node},
    n.weight ≤ fuel → ∃ r, chooseLeaf C b fuel ctx n = .ok r
  | 0, ctx, n, h => by have := n.weight_pos; omega
  | fuel + 1, ctx, n, h => by
    rw [chooseLeaf]
    split
    · exact ⟨_, rfl⟩
    · rename_i hl
      have hch : n.ch ≠ [] := by simpa [Node.isLeaf] using hl
      obtain ⟨l, c, r, hf⟩ := focus_ok (hC.choose n.ch b hch)
      rw [except_bind_of_ok (orUb_ok.2 hf)]
      refine chooseLeaf_ok hC ?_
      have hm : c ∈ n.ch := by rw [focus_some hf]; simp
      have := weight_mem hm
      rw [Node.weight_eq] at h
      omega

theorem chooseLeaf_fan {C : Cfg} {b : Box} : ∀ {fuel : Nat} {ctx ctx' : Ctx} {n d : Node},
    CtxFan mn mx ctx → FanN mn mx ctx n → chooseLeaf C b fuel ctx n = .ok (ctx', d) →
    CtxFan mn mx ctx' ∧ FanN mn mx ctx' d
  | fuel, ctx, ctx', n, d, hc, hn, h => by
    by_cases hl : n.isLeaf = true
    · have : chooseLeaf C b fuel ctx n = .ok (ctx, n) := by cases fuel <;> simp [chooseLeaf, hl]
      rw [this] at h
      simp only [Except.ok.injEq, Prod.mk.injEq] at h
      obtain ⟨rfl, rfl⟩ := h
      exact ⟨hc, hn⟩
    · cases fuel with
      | zero => simp [chooseLeaf, hl] at h
      | succ fuel =>
        rw [chooseLeaf, if_neg hl, except_bind_ok] at h
        obtain ⟨⟨l, c, r⟩, h1, h2⟩ := h
        rw [orUb_ok] at h1
        have hch := focus_some h1
        have hfan : n.fanOut = l.length + 1 + r.length := by
          rw [fanOut_inner (by rw [hch]; simp), hch]
          simp only [List.length_append, List.length_cons]
          omega
        have hcf : FanAll mn mx c := hn.2.2 c (by rw [hch]; simp)
        refine chooseLeaf_fan (ctx := ⟨n.id, n.bd, l, r, n.obs⟩ :: ctx) ⟨⟨?_, ?_, ?_, ?_⟩, hc⟩ ?_ h2
        · exact fun c hc => hn.2.2 c (by rw [hch]; simp at hc ⊢; exact .inl hc)
        · exact fun c hc => hn.2.2 c (by rw [hch]; simp at hc ⊢; exact .inr (.inr hc))
        · have := hn.1; simp only; omega
        · intro hh; have := hn.2.1 hh; simp only; omega
        · exact ⟨hcf.self.2, fun _ => hcf.self.1, fun x hx => AllNodes.child hcf hx⟩

/-! ### The heuristics of the library -/

theorem scan_lt {α : Type} (better : α → α → Bool) : ∀ (l : List α) (i : Nat) (best : Nat × α),
    best.1 < i → scan better i best l < i + l.length
  | [], i, best, h => by simpa [scan] using h
  | x :: l, i, best, h => by
    rw [scan]
    have := scan_lt better l (i + 1) (if better best.2 x then (i, x) else best) (by
      split
      · simp
      · omega)
    simp only [List.length_cons]
    omega

theorem firstBest_some {α : Type} {better : α → α → Bool} {l : List α} (h : l ≠ []) :
    ∃ i, firstBest better l = some i ∧ i < l.length := by
  cases l with
  | nil => exact absurd rfl h
  | cons x l =>
    refine ⟨_, rfl, ?_⟩
    have := scan_lt better l 1 (0, x) (by simp)
    simp only [List.length_cons]
    omega

theorem chooseDestination_lt {l : List Node} {b : Box} (h : l ≠ []) : chooseDestination l b < l.length := by
  unfold chooseDestination
  obtain ⟨i, h1, h2⟩ := firstBest_some
    (better := fun x y : Nat × Nat => if y.1 == x.1 then y.2 < x.2 else y.1 < x.1)
    (l := l.map fun c => ((mbr2 c.bd b).size - c.bd.size, (mbr2 c.bd b).size)) (by simpa using h)
  rw [h1]
  simpa using h2

theorem pickSeeds_some {es : List Box} (h : 2 ≤ es.length) :
    ∃ i j, pickSeeds es = some (i, j) ∧ i < j ∧ j < es.length := by
  have hne : seedPairs es ≠ [] := by
    intro he
    have : ((0, 1), waste (es.getD 0 []) (es.getD 1 [])) ∈ seedPairs es := by
      unfold seedPairs
      simp only [List.mem_flatMap, List.mem_range, List.mem_filterMap]
      exact ⟨0, by omega, 1, by omega, by simp⟩
    rw [he] at this
    simp at this
  obtain ⟨i, h1, h2⟩ := firstBest_some (better := fun x y : (Nat × Nat) × Nat => decide (x.2 < y.2)) hne
  unfold pickSeeds
  rw [h1]
  simp only [Option.bind_some, List.getElem?_eq_getElem h2, Option.map_some]
  have hm := List.getElem_mem h2
  generalize (seedPairs es)[i] = x at hm
  obtain ⟨⟨a, b⟩, w⟩ := x
  unfold seedPairs at hm
  simp only [List.mem_flatMap, List.mem_range, List.mem_filterMap] at hm
  obtain ⟨i', _, j', hj', hij⟩ := hm
  split at hij
  · simp only [Option.some.injEq, Prod.mk.injEq] at hij
    obtain ⟨⟨rfl, rfl⟩, _⟩ := hij
    exact ⟨_, _, rfl, by assumption, hj'⟩
  · simp at hij

theorem perm_pick {α : Type} {l : List α} {i : Nat} {e : α} (h : l[i]? = some e) :
    l.Perm (e :: l.eraseIdx i) := by
  obtain ⟨hi, rfl⟩ := List.getElem?_eq_some_iff.1 h
  exact (List.getElem_cons_eraseIdx_perm hi).symm

theorem splitLoop_spec {α : Type} (shape : α → Box) (mn : Nat) (b1 b2 : Box) :
    ∀ (fuel : Nat) (g1 g2 rem : List α), rem.length ≤ fuel → mn ≤ g1.length + rem.length →
    mn ≤ g2.length + rem.length → 2 * mn ≤ g1.length + g2.length + rem.length →
    ∃ a b, splitLoop shape mn b1 b2 fuel g1 g2 rem = some (a, b) ∧ (a ++ b).Perm (g1 ++ (g2 ++ rem)) ∧
      mn ≤ a.length ∧ mn ≤ b.length
  | fuel, g1, g2, [], _, h1, h2, _ => by
    refine ⟨g1, g2, by cases fuel <;> simp [splitLoop], by simp, by simpa using h1, by simpa using h2⟩
  | 0, g1, g2, x :: rem, h, _, _, _ => by simp at h
  | fuel + 1, g1, g2, x :: rem, h, h1, h2, h3 => by
    rw [splitLoop]
    swap
    · simp
    split
    · rename_i he
      have he : g1.length + (x :: rem).length = mn := by simpa using he
      refine ⟨_, _, rfl, ?_, ?_, ?_⟩
      · rw [List.append_assoc]
        exact List.perm_append_comm.append_left _
      · rw [List.length_append]; omega
      · omega
    · rename_i he1
      have he1 : g1.length + (x :: rem).length ≠ mn := by simpa using he1
      split
      · rename_i he
        have he : g2.length + (x :: rem).length = mn := by simpa using he
        refine ⟨_, _, rfl, List.Perm.refl _, ?_, ?_⟩
        · omega
        · rw [List.length_append]; omega
      · rename_i he2
        have he2 : g2.length + (x :: rem).length ≠ mn := by simpa using he2
        obtain ⟨i, hi1, hi2⟩ := firstBest_some (better := fun x y : Nat => decide (x < y))
          (l := ((x :: rem).map shape).map fun e =>
            max (growth e b1) (growth e b2) - min (growth e b1) (growth e b2)) (by simp)
        have hpn : pickNext ((x :: rem).map shape) b1 b2 = some i := hi1
        have hi3 : i < (x :: rem).length := by simpa using hi2
        rw [hpn, Option.bind_some, List.getElem?_eq_getElem hi3, Option.bind_some]
        have hp := perm_pick (List.getElem?_eq_getElem hi3)
        generalize (x :: rem)[i] = e at hp ⊢
        have hl : ((x :: rem).eraseIdx i).length + 1 = (x :: rem).length := by
          have := hp.length_eq
          rw [List.length_cons (a := e)] at this
          exact this.symm
        split
        · obtain ⟨a, b, i1, i2, i3, i4⟩ := splitLoop_spec shape mn b1 b2 fuel (g1 ++ [e]) g2
            ((x :: rem).eraseIdx i) (by omega) (by simp only [List.length_append, List.length_cons, List.length_nil]; simp only [List.length_cons] at hl h1 he1 ⊢; omega)
            (by simp only [List.length_cons] at hl h2 he2 ⊢; omega)
            (by simp only [List.length_append, List.length_cons, List.length_nil] at *; omega)
          refine ⟨a, b, i1, i2.trans ?_, i3, i4⟩
          refine List.Perm.trans ?_ ((hp.symm.append_left g2).append_left g1)
          rw [List.append_assoc, List.singleton_append]
          exact (List.perm_middle.symm).append_left g1
        · obtain ⟨a, b, i1, i2, i3, i4⟩ := splitLoop_spec shape mn b1 b2 fuel g1 (g2 ++ [e])
            ((x :: rem).eraseIdx i) (by omega) (by simp only [List.length_cons] at hl h1 he1 ⊢; omega)
            (by simp only [List.length_append, List.length_cons, List.length_nil]; simp only [List.length_cons] at hl h2 he2 ⊢; omega)
            (by simp only [List.length_append, List.length_cons, List.length_nil] at *; omega)
          refine ⟨a, b, i1, i2.trans ?_, i3, i4⟩
          refine List.Perm.trans ?_ ((hp.symm.append_left g2).append_left g1)
          rw [List.append_assoc]
          exact List.Perm.refl _

theorem splitEntries_spec {α : Type} (shape : α → Box) {mn : Nat} {es : List α} (hmn : 1 ≤ mn)
    (h : 2 * mn < es.length) :
    ∃ a b, splitEntries shape mn es = some (a, b) ∧ (a ++ b).Perm es ∧ mn ≤ a.length ∧ mn ≤ b.length := by
  unfold splitEntries
  obtain ⟨i, j, h1, h2, h3⟩ := pickSeeds_some (es := es.map shape) (by simp; omega)
  rw [List.length_map] at h3
  rw [h1]
  simp only [Option.bind_some]
  rw [List.getElem?_eq_getElem (by omega : i < es.length), List.getElem?_eq_getElem h3]
  simp only [Option.bind_some]
  have hj := perm_pick (List.getElem?_eq_getElem h3)
  have hi' : (es.eraseIdx j)[i]? = some es[i] := by
    rw [List.getElem?_eraseIdx_of_lt h2, List.getElem?_eq_getElem]
  have hi := perm_pick hi'
  have hl1 := hj.length_eq
  have hl2 := hi.length_eq
  rw [List.length_cons] at hl1 hl2
  obtain ⟨a, b, i1, i2, i3, i4⟩ := splitLoop_spec shape mn (shape es[i]) (shape es[j]) es.length
    [es[i]] [es[j]] ((es.eraseIdx j).eraseIdx i) (by omega) (by simp; omega) (by simp; omega)
    (by simp; omega)
  refine ⟨a, b, i1, i2.trans ?_, i3, i4⟩
  refine List.Perm.trans ?_ hj.symm
  refine List.Perm.trans ?_ (hi.symm.cons _)
  exact List.Perm.swap _ _ _

/-- The heuristics of the library make admissible choices. -/
theorem stdCfg_anyChoice {mn mx : Nat} (h1 : 1 ≤ mn) (h2 : 2 * mn ≤ mx) : AnyChoice (stdCfg mn mx) where
  mn := h1
  mx := h2
  choose := fun _ _ h => chooseDestination_lt h
  obs := fun l hl => splitEntries_spec id h1 (by simp only [stdCfg] at hl; omega)
  ch := fun l hl => splitEntries_spec Node.bd h1 (by simp only [stdCfg] at hl; omega)

end RTree
end Marco
