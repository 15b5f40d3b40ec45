import Verif.Spec.ArrayMemory
import Mathlib.Tactic.Ring
import Mathlib.Tactic.Linarith
import Mathlib.Tactic.LinearCombination
import Mathlib.Algebra.Order.BigOperators.Group.List
import Mathlib.Algebra.BigOperators.Group.List.Basic
import Mathlib.Data.List.Forall2

/-!
# Lemmas for C115
-/

namespace Marco.ArrMem
open Marco.Spec.ArrMem

/-! ## The counter of indices -/

/-- The number that the indices stand for, the first digit being the lowest. -/
def le : List Nat → List Nat → Nat
  | i :: is, d :: ds => i + d * le is ds
  | _, _ => 0

/-- Indices below the dimensions. -/
def Below (idx dims : List Nat) : Prop := List.Forall₂ (· < ·) idx dims

theorem le_lt {idx dims : List Nat} (h : Below idx dims) : le idx dims < dims.prod := by
  induction h with
  | nil => simp [le]
  | @cons i d is ds h1 _ ih =>
    simp only [le, List.prod_cons]
    calc i + d * le is ds < d + d * le is ds := by omega
      _ = d * (le is ds + 1) := by ring
      _ ≤ d * ds.prod := Nat.mul_le_mul_left _ ih

theorem le_inj {a b dims : List Nat} (ha : Below a dims) (hb : Below b dims) (h : le a dims = le b dims) : a = b := by
  induction ha generalizing b with
  | nil => cases hb; rfl
  | @cons i d is ds h1 _ ih =>
    cases hb with
    | @cons j _ js _ h2 h3 =>
      simp only [le] at h
      have hm := congrArg (· % d) h
      have hd := congrArg (· / d) h
      have hp : 0 < d := by omega
      simp only [Nat.add_mul_mod_self_left, Nat.mod_eq_of_lt h1, Nat.mod_eq_of_lt h2] at hm
      simp only [Nat.add_mul_div_left _ _ hp, Nat.div_eq_of_lt h1, Nat.div_eq_of_lt h2, Nat.zero_add] at hd
      rw [hm, ih h3 hd]

theorem advance_spec {idx dims : List Nat} (h : Below idx dims) :
    ((advance idx dims).2 = true ∧ Below (advance idx dims).1 dims ∧ le (advance idx dims).1 dims = le idx dims + 1) ∨
    ((advance idx dims).2 = false ∧ le idx dims + 1 = dims.prod) := by
  induction h with
  | nil => right; simp [advance, le]
  | @cons i d is ds h1 h2 ih =>
    simp only [advance]
    by_cases hc : i + 1 = d
    · rw [if_pos hc]
      rcases ih with ⟨a, b, c⟩ | ⟨a, b⟩
      · left
        refine ⟨a, List.Forall₂.cons (by omega) b, ?_⟩
        simp only [le, c]
        rw [← hc]; ring
      · right
        refine ⟨a, ?_⟩
        simp only [le, List.prod_cons, ← b]
        rw [← hc]; ring
    · rw [if_neg hc]
      left
      refine ⟨rfl, List.Forall₂.cons (by omega) h2, ?_⟩
      simp only [le]; ring

theorem fromLoop_spec {V : Type} (dimsR : List Nat) (idxR : List Nat) (values : List V) (arr : List Nat → Option V)
    (h : Below idxR dimsR) (hl : values.length + le idxR dimsR = dimsR.prod) :
    ∃ arr', fromLoop dimsR idxR values arr = .ok arr' ∧
      (∀ j, Below j dimsR → le j dimsR < le idxR dimsR → arr' j.reverse = arr j.reverse) ∧
      (∀ j, Below j dimsR → le idxR dimsR ≤ le j dimsR → arr' j.reverse = values[le j dimsR - le idxR dimsR]?) ∧
      (∀ j, ¬ Below j dimsR → arr' j.reverse = arr j.reverse) := by
  induction values generalizing idxR arr with
  | nil =>
    have := le_lt h
    simp at hl; omega
  | cons v vs ih =>
    simp only [fromLoop]
    have hrev : ∀ j : List Nat, j.reverse = idxR.reverse ↔ j = idxR := fun j => List.reverse_inj
    rcases advance_spec h with ⟨a, b, c⟩ | ⟨a, b⟩
    · rw [if_pos a]
      obtain ⟨arr', h1, h2, h3, h4⟩ := ih _ (fun j => if j = idxR.reverse then some v else arr j) b
        (by simp only [List.length_cons] at hl; omega)
      refine ⟨arr', h1, ?_, ?_, ?_⟩
      · intro j hj hlt
        rw [h2 j hj (by omega), if_neg]
        rw [hrev]; rintro rfl; omega
      · intro j hj hle
        by_cases he : le j dimsR = le idxR dimsR
        · have := le_inj hj h he
          subst this
          rw [h2 j hj (by omega)]
          simp
        · rw [h3 j hj (by omega)]
          rw [show le j dimsR - le idxR dimsR = (le j dimsR - le (advance idxR dimsR).1 dimsR) + 1 from by omega]
          rw [List.getElem?_cons_succ]
      · intro j hj
        rw [h4 j hj, if_neg]
        rw [hrev]; rintro rfl; exact hj h
    · rw [a]
      refine ⟨_, if_neg (by simp), ?_, ?_, ?_⟩
      · intro j hj hlt
        rw [if_neg]
        rw [hrev]; rintro rfl; omega
      · intro j hj hle
        have := le_lt hj
        have he : le j dimsR = le idxR dimsR := by omega
        have := le_inj hj h he
        subst this
        simp
      · intro j hj
        rw [if_neg]
        rw [hrev]; rintro rfl; exact hj h

theorem le_append (a b : List Nat) (i d : Nat) (h : a.length = b.length) :
    le (a ++ [i]) (b ++ [d]) = le a b + b.prod * i := by
  induction a generalizing b with
  | nil =>
    cases b with
    | nil => simp [le]
    | cons => simp at h
  | cons x xs ih =>
    cases b with
    | nil => simp at h
    | cons y ys =>
      simp only [List.cons_append, le, List.prod_cons]
      rw [ih ys (by simpa using h)]; ring

theorem le_reverse (idx dims : List Nat) (h : idx.length = dims.length) :
    le idx.reverse dims.reverse = position dims idx := by
  induction idx generalizing dims with
  | nil =>
    cases dims with
    | nil => rfl
    | cons => simp at h
  | cons i is ih =>
    cases dims with
    | nil => simp at h
    | cons d ds =>
      have hl : is.length = ds.length := by simpa using h
      rw [List.reverse_cons, List.reverse_cons, le_append _ _ _ _ (by simpa using hl), ih ds hl, List.prod_reverse]
      simp only [position]; ring

theorem le_zeros (dims : List Nat) : le (dims.map fun _ => 0) dims = 0 := by
  induction dims with
  | nil => rfl
  | cons d ds ih => simp only [List.map_cons, le, ih, Nat.mul_zero]

theorem below_zeros (dims : List Nat) (h : ∀ d ∈ dims, 0 < d) : Below (dims.map fun _ => 0) dims := by
  induction dims with
  | nil => exact .nil
  | cons d ds ih => exact .cons (h d (by simp)) (ih fun x hx => h x (by simp [hx]))

/-! ## Loop nests -/

/-- The positions that a loop nest visits. -/
def visits : List Nat → List Int → List (List Int)
  | [], pos => [pos]
  | u :: us, pos => (List.range u).flatMap fun (i : Nat) => visits us (pos ++ [(i : Int)])

theorem loopNest_eq {S : Type} (body : List Int → S → S) (us : List Nat) (pos : List Int) (s : S) :
    loopNest body us pos s = (visits us pos).foldl (fun s p => body p s) s := by
  induction us generalizing pos s with
  | nil => rfl
  | cons u us ih =>
    simp only [loopNest, visits, List.foldl_flatMap]
    congr 1
    funext s i
    exact ih _ _

theorem mem_visits (us : List Nat) (pos p : List Int) :
    p ∈ visits us pos ↔ ∃ idx, p = pos ++ idx ∧ Within (us.map fun (u : Nat) => (u : Int)) idx := by
  induction us generalizing pos with
  | nil =>
    simp only [visits, List.mem_singleton]
    constructor
    · rintro rfl
      exact ⟨[], by simp, by simp [Within]⟩
    · rintro ⟨idx, rfl, h, _⟩
      have : idx = [] := by simpa using h
      simp [this]
  | cons u us ih =>
    simp only [visits, List.mem_flatMap, List.mem_range]
    constructor
    · rintro ⟨i, hi, hp⟩
      obtain ⟨idx, rfl, h1, h2⟩ := (ih _).1 hp
      refine ⟨(i : Int) :: idx, by simp, by simpa using h1, ?_⟩
      intro k j n hj hn
      match k with
      | 0 =>
        simp at hj hn
        omega
      | k + 1 => exact h2 k j n (by simpa using hj) (by simpa using hn)
    · rintro ⟨idx, rfl, h1, h2⟩
      match idx, h1, h2 with
      | [], h1, _ => simp at h1
      | i :: is, h1, h2 =>
        have h0 := h2 0 i u rfl rfl
        refine ⟨i.toNat, by omega, (ih _).2 ⟨is, ?_, by simpa using h1, fun k j n hj hn => h2 (k + 1) j n (by simpa using hj) (by simpa using hn)⟩⟩
        rw [Int.toNat_of_nonneg h0.1]
        simp

/-- Induction from the end of a list. -/
@[elab_as_elim]
theorem reverseRec {α : Type} {P : List α → Prop} (l : List α) (nil : P []) (snoc : ∀ l x, P l → P (l ++ [x])) : P l := by
  rw [← List.reverse_reverse l]
  induction l.reverse with
  | nil => exact nil
  | cons a l ih => rw [List.reverse_cons]; exact snoc _ _ ih

theorem foldl_store {W : Type} (m : MemRef) (g : List Int → W) (l : List (List Int)) (mem : Int → W) (a : Int) :
    ((∀ p ∈ l, m.addr p ≠ a) → (l.foldl (fun mem p => store m p (g p) mem) mem) a = mem a) ∧
    (∀ p ∈ l, m.addr p = a → ∃ q ∈ l, m.addr q = a ∧ (l.foldl (fun mem p => store m p (g p) mem) mem) a = g q) := by
  induction l using reverseRec with
  | nil => simp
  | snoc l x ih =>
    simp only [List.foldl_append, List.foldl_cons, List.foldl_nil]
    constructor
    · intro h
      have hx := h x (by simp)
      simp only [store]
      rw [if_neg (fun e => hx e.symm)]
      exact ih.1 fun p hp => h p (by simp [hp])
    · intro p hp hpa
      by_cases hx : m.addr x = a
      · refine ⟨x, by simp, hx, ?_⟩
        simp only [store]
        rw [if_pos hx.symm]
      · have hpl : p ∈ l := by
          rcases List.mem_append.1 hp with h | h
          · exact h
          · rw [List.mem_singleton] at h
            subst h
            exact absurd hpa hx
        obtain ⟨q, hq, hqa, hqe⟩ := ih.2 p hpl hpa
        refine ⟨q, by simp [hq], hqa, ?_⟩
        simp only [store]
        rw [if_neg (fun e => hx e.symm)]
        exact hqe

/-! ## Views -/

theorem keep_length {its : List Item} {R : List (Option Nat)} {ks : List Bool} (h : keep its R = some ks) :
    R.length ≤ its.length := by
  induction its generalizing R ks with
  | nil =>
    cases R with
    | nil => simp
    | cons => simp [keep] at h
  | cons it its ih =>
    cases R with
    | nil => simp
    | cons r rs =>
      simp only [keep] at h
      split_ifs at h
      · obtain ⟨k, hk, _⟩ := Option.map_eq_some_iff.1 h
        have := ih hk
        simpa using this
      · obtain ⟨k, hk, _⟩ := Option.map_eq_some_iff.1 h
        have := ih hk
        simp at this ⊢
        omega

theorem keep_all {its : List Item} {R : List (Option Nat)} {ks : List Bool} (h : keep its R = some ks)
    (hl : its.length = R.length) : ks = its.map fun _ => true := by
  induction its generalizing R ks with
  | nil =>
    cases R with
    | nil => simp only [keep, Option.some.injEq] at h; simp [← h]
    | cons => simp at hl
  | cons it its ih =>
    cases R with
    | nil => simp at hl
    | cons r rs =>
      simp only [keep] at h
      split_ifs at h
      · obtain ⟨k, hk, rfl⟩ := Option.map_eq_some_iff.1 h
        rw [ih hk (by simpa using hl), List.map_cons]
      · obtain ⟨k, hk, _⟩ := Option.map_eq_some_iff.1 h
        have := keep_length hk
        simp at this hl
        omega

/-- The sizes of a view, as computed by the code. -/
def viewSizes : List Sub → List Int → List Int
  | [], ns => ns
  | .index _ :: subs, _ :: ns => viewSizes subs ns
  | .range _ b e s :: subs, _ :: ns => rangeSize b e s :: viewSizes subs ns
  | _ :: _, [] => []

/-- Where the size of the result is known to be 1 the index is 0. -/
def OneZero (R : List (Option Nat)) (idx : List Int) : Prop := List.Forall₂ (fun r i => r = some 1 → i = 0) R idx

theorem agrees_cons {n : Option Nat} {shape : List (Option Nat)} {k : Int} {ns : List Int}
    (h : Agrees (n :: shape) (k :: ns)) : (∀ c : Nat, n = some c → k = c) ∧ Agrees shape ns :=
  ⟨fun c hc => h.2 0 c k (by simp [hc]) rfl, by simpa using h.1, fun j c x hj hx => h.2 (j + 1) c x (by simpa using hj) (by simpa using hx)⟩

theorem item_size {n : Option Nat} {k : Int} (h : ∀ c : Nat, n = some c → k = c) :
    (n.elim k fun c => (c : Int)) = k := by
  cases n with
  | none => rfl
  | some c => exact (h c rfl).symm

theorem keep_view (subs : List Sub) (shape : List (Option Nat)) (dims : List (Int × Int)) (j : Nat) (R : List (Option Nat))
    (hs : subs.length ≤ dims.length) (ha : Agrees shape (dims.map Prod.fst))
    (hf : ∀ s ∈ subs, ∀ b e t, s ≠ .range true b e t)
    (hR : inferShape subs shape = List.replicate j (some 1) ++ R) :
    ∃ ks, keep (items subs shape dims) R = some ks ∧
      viewSizes subs (dims.map Prod.fst) = List.replicate j 1 ++ (viewDims ks (items subs shape dims) dims).map Prod.fst ∧
      ∀ idx, OneZero R idx → viewOffset (items subs shape dims) dims + dot (viewDims ks (items subs shape dims) dims) idx =
        dot dims (select subs (List.replicate j 0 ++ idx)) := by
  induction dims generalizing subs shape j R with
  | nil =>
    have h1 : subs = [] := by simpa using hs
    have h2 : shape = [] := by simpa using ha.1
    subst h1 h2
    simp only [inferShape] at hR
    have hR' := List.append_eq_nil_iff.1 hR.symm
    obtain ⟨h3, rfl⟩ := hR'
    have h4 : j = 0 := by simpa using h3
    subst h4
    exact ⟨[], rfl, by simp [viewSizes, viewDims], by intro idx _; simp [viewOffset, viewDims, items, dot]⟩
  | cons d dims ih =>
    match shape, ha with
    | [], ha => simp [Agrees] at ha
    | n :: shape, ha =>
    rw [List.map_cons] at ha
    obtain ⟨hn, ha'⟩ := agrees_cons ha
    match subs, hs, hf, hR with
    | .index i :: subs, hs, hf, hR =>
      have hs' : subs.length ≤ dims.length := by simpa using hs
      have hf' : ∀ s ∈ subs, ∀ b e t, s ≠ .range true b e t := fun s h => hf s (by simp [h])
      simp only [inferShape] at hR
      have drop : keep (items subs shape dims) R ≠ none → (∀ ks, keep (items subs shape dims) R = some ks →
          keep (⟨some 1, i, 1, 1⟩ :: items subs shape dims) R = some (false :: ks)) → ∃ ks,
          keep (items (.index i :: subs) (n :: shape) (d :: dims)) R = some ks ∧
          viewSizes (.index i :: subs) ((d :: dims).map Prod.fst) = List.replicate j 1 ++
            (viewDims ks (items (.index i :: subs) (n :: shape) (d :: dims)) (d :: dims)).map Prod.fst ∧
          ∀ idx, OneZero R idx → viewOffset (items (.index i :: subs) (n :: shape) (d :: dims)) (d :: dims) +
            dot (viewDims ks (items (.index i :: subs) (n :: shape) (d :: dims)) (d :: dims)) idx =
            dot (d :: dims) (select (.index i :: subs) (List.replicate j 0 ++ idx)) := by
        intro _ hk
        obtain ⟨ks, h1, h2, h3⟩ := ih subs shape j R hs' ha' hf' hR
        refine ⟨false :: ks, by simpa only [items] using hk ks h1, ?_, ?_⟩
        · simp only [List.map_cons, viewSizes, items, viewDims]
          simpa using h2
        · intro idx hidx
          have := h3 idx hidx
          simp only [items, viewOffset, viewDims, select, dot, Bool.false_eq_true, if_false]
          linarith
      have hne : keep (items subs shape dims) R ≠ none := by
        obtain ⟨ks, h1, _⟩ := ih subs shape j R hs' ha' hf' hR
        simp [h1]
      match R, hR, drop, hne with
      | [], hR, drop, hne => exact drop hne fun ks hk => by simp [keep, hk]
      | r :: R, hR, drop, hne =>
        by_cases hr : some 1 = r
        · subst hr
          obtain ⟨ks, h1, h2, h3⟩ := ih subs shape (j + 1) R hs' ha' hf' (by
            rw [hR, List.replicate_succ']; simp)
          refine ⟨true :: ks, by simp [items, keep, h1], ?_, ?_⟩
          · simp only [List.map_cons, viewSizes, items, viewDims, if_true, h2]
            rw [List.replicate_succ']; simp
          · intro idx hidx
            cases hidx with
            | @cons _ x _ xs hx hxs =>
              have hx0 := hx rfl
              subst hx0
              have := h3 xs hxs
              rw [List.replicate_succ', List.append_assoc, List.singleton_append] at this
              simp only [items, viewOffset, viewDims, select, dot, if_true]
              linarith
        · exact drop hne fun ks hk => by simp [keep, hk, hr]
    | .range f b e s :: subs, hs, hf, hR =>
      have hs' : subs.length ≤ dims.length := by simpa using hs
      have hf' : ∀ s ∈ subs, ∀ b e t, s ≠ .range true b e t := fun s h => hf s (by simp [h])
      have hff : f = false := by
        cases f with
        | false => rfl
        | true => exact absurd rfl (hf _ (by simp) b e s)
      subst hff
      simp only [inferShape] at hR
      cases j with
      | zero =>
        simp only [List.replicate_zero, List.nil_append] at hR
        subst hR
        obtain ⟨ks, h1, h2, h3⟩ := ih subs shape 0 (inferShape subs shape) hs' ha' hf' (by simp)
        refine ⟨true :: ks, by simp [items, keep, h1], ?_, ?_⟩
        · simp only [List.map_cons, viewSizes, items, viewDims, if_true, h2]
          simp
        · intro idx hidx
          cases hidx with
          | @cons _ x _ xs hx hxs =>
            have := h3 xs hxs
            simp only [items, viewOffset, viewDims, select, dot, if_true, List.replicate_zero, List.nil_append] at this ⊢
            linear_combination this
      | succ j => simp [List.replicate_succ] at hR
    | [], hs, hf, hR =>
      simp only [inferShape] at hR
      cases j with
      | zero =>
        simp only [List.replicate_zero, List.nil_append] at hR
        subst hR
        obtain ⟨ks, h1, h2, h3⟩ := ih [] shape 0 shape (by simp) ha' (by simp) (by simp [inferShape])
        refine ⟨true :: ks, by simp [items, keep, h1], ?_, ?_⟩
        · simp only [List.map_cons, viewSizes, items, viewDims, if_true, item_size hn, List.replicate_zero, List.nil_append] at h2 ⊢
          rw [h2]
        · intro idx hidx
          cases hidx with
          | @cons _ x _ xs hx hxs =>
            have := h3 xs hxs
            simp only [items, viewOffset, viewDims, select, dot, if_true, List.replicate_zero, List.nil_append] at this ⊢
            linear_combination this
      | succ j =>
        rw [List.replicate_succ, List.cons_append, List.cons.injEq] at hR
        obtain ⟨rfl, hR2⟩ := hR
        have hd1 : d.1 = 1 := by simpa using hn 1 rfl
        by_cases hr : ∃ R', R = some 1 :: R'
        · obtain ⟨R', rfl⟩ := hr
          obtain ⟨ks, h1, h2, h3⟩ := ih [] shape (j + 1) R' (by simp) ha' (by simp) (by
            rw [inferShape, hR2, List.replicate_succ']; simp)
          refine ⟨true :: ks, by simp [items, keep, h1], ?_, ?_⟩
          · simp only [List.map_cons, viewSizes, items, viewDims, if_true] at h2 ⊢
            have hx : ∀ X : List Int, 1 :: (List.replicate (j + 1) 1 ++ X) = List.replicate (j + 1) 1 ++ 1 :: X := by
              intro X
              rw [← List.cons_append, ← List.replicate_succ, List.replicate_succ', List.append_assoc]
              rfl
            rw [h2, hd1]
            exact hx _
          · intro idx hidx
            cases hidx with
            | @cons _ x _ xs hx hxs =>
              have hx0 := hx rfl
              subst hx0
              have := h3 xs hxs
              rw [List.replicate_succ', List.append_assoc, List.singleton_append] at this
              simp only [items, viewOffset, viewDims, select, dot, if_true, List.replicate_succ, List.cons_append] at this ⊢
              linear_combination this
        · obtain ⟨ks, h1, h2, h3⟩ := ih [] shape j R (by simp) ha' (by simp) (by rw [inferShape, hR2])
          have hk : keep (⟨some 1, 0, ((1 : Nat) : Int), 1⟩ :: items [] shape dims) R = some (false :: ks) := by
            match R, hr, h1 with
            | [], _, h1 => simp [keep, h1]
            | r :: R, hr, h1 =>
              have : ¬ some 1 = r := fun h => hr ⟨R, by rw [h]⟩
              simp [keep, h1, this]
          refine ⟨false :: ks, hk, ?_, ?_⟩
          · simp only [List.map_cons, viewSizes, items, viewDims, Bool.false_eq_true, if_false] at h2 ⊢
            rw [h2, hd1, List.replicate_succ, List.cons_append]
          · intro idx hidx
            have := h3 idx hidx
            simp only [items, viewOffset, viewDims, select, dot, Bool.false_eq_true, if_false, List.replicate_succ, List.cons_append] at this ⊢
            linear_combination this

theorem agrees_nil : Agrees [] [] := ⟨rfl, by simp⟩

theorem agrees_mk {n : Option Nat} {shape : List (Option Nat)} {k : Int} {ns : List Int} (h1 : ∀ c : Nat, n = some c → k = c)
    (h2 : Agrees shape ns) : Agrees (n :: shape) (k :: ns) := by
  refine ⟨by simpa using h2.1, ?_⟩
  intro j c x hj hx
  cases j with
  | zero =>
    simp only [List.getElem?_cons_zero, Option.some.injEq] at hj hx
    rw [← hx]; exact h1 c hj
  | succ j => exact h2.2 j c x (by simpa using hj) (by simpa using hx)

theorem agrees_infer (subs : List Sub) (shape : List (Option Nat)) (ns : List Int) (ha : Agrees shape ns)
    (hf : ∀ s ∈ subs, ∀ b e t, s ≠ .range true b e t) : Agrees (inferShape subs shape) (viewSizes subs ns) := by
  induction subs generalizing shape ns with
  | nil => exact ha
  | cons sub subs ih =>
    match shape, ns, ha with
    | [], [], _ => cases sub <;> simp only [inferShape, viewSizes] <;> exact agrees_nil
    | [], _ :: _, ha => simp [Agrees] at ha
    | _ :: _, [], ha => simp [Agrees] at ha
    | n :: shape, k :: ns, ha =>
      obtain ⟨_, ha'⟩ := agrees_cons ha
      have := ih shape ns ha' fun s h => hf s (by simp [h])
      cases sub with
      | index i => exact this
      | range f b e s =>
        cases f with
        | true => exact absurd rfl (hf _ (by simp) b e s)
        | false =>
          simp only [inferShape, viewSizes]
          exact agrees_mk (by simp) this

theorem oneZero (R : List (Option Nat)) (ns idx : List Int) (ha : Agrees R ns) (hw : Within ns idx) : OneZero R idx := by
  induction R generalizing ns idx with
  | nil =>
    have h1 : ns = [] := by simpa using ha.1.symm
    subst h1
    have h2 : idx = [] := by simpa using hw.1
    subst h2
    exact .nil
  | cons r R ih =>
    match ns, idx, ha, hw with
    | [], _, ha, _ => simp [Agrees] at ha
    | _ :: _, [], _, hw => simp [Within] at hw
    | n :: ns, i :: idx, ha, hw =>
      obtain ⟨h1, h2⟩ := agrees_cons ha
      refine .cons ?_ (ih ns idx h2 ⟨by simpa using hw.1, fun k a b hk hb => hw.2 (k + 1) a b (by simpa using hk) (by simpa using hb)⟩)
      intro hr
      have h3 := h1 1 hr
      have h4 := hw.2 0 i n rfl rfl
      omega

theorem rangeSize_eq (b e s : Int) (h : (0 < s ∧ b ≤ e) ∨ (s < 0 ∧ e ≤ b)) :
    rangeSize b e s = (Int.toNat ((e - b).fdiv s + 1) : Int) := by
  have key : ∀ a c : Int, 0 ≤ a → 0 < c → a.tdiv c = a.fdiv c ∧ 0 ≤ a.fdiv c := by
    intro a c ha hc
    rw [Int.tdiv_eq_ediv_of_nonneg ha, Int.fdiv_eq_ediv_of_nonneg _ hc.le]
    exact ⟨rfl, Int.ediv_nonneg ha hc.le⟩
  have : (e - b).tdiv s = (e - b).fdiv s ∧ 0 ≤ (e - b).fdiv s := by
    rcases h with ⟨h1, h2⟩ | ⟨h1, h2⟩
    · exact key _ _ (by omega) h1
    · have := key (-(e - b)) (-s) (by omega) (by omega)
      rwa [Int.neg_tdiv_neg, Int.neg_fdiv_neg] at this
  unfold rangeSize
  rw [Int.toNat_of_nonneg (by omega), this.1]

theorem viewSizes_eq (subs : List Sub) (ns : List Int) (h : ∀ s ∈ subs, Proper s) : viewSizes subs ns = sizes subs ns := by
  induction subs generalizing ns with
  | nil => rfl
  | cons sub subs ih =>
    have ih' := fun ns => ih ns fun s hs => h s (by simp [hs])
    cases ns with
    | nil => cases sub <;> rfl
    | cons n ns =>
      cases sub with
      | index i => simp only [viewSizes, sizes, ih']
      | range f b e s =>
        simp only [viewSizes, sizes, ih', rangeSize_eq b e s (h (.range f b e s) (List.mem_cons_self ..))]

theorem sizes_length (subs : List Sub) (ns : List Int) (h : ∀ s ∈ subs, s.isRange = true) : (viewSizes subs ns).length = ns.length := by
  induction subs generalizing ns with
  | nil => rfl
  | cons sub subs ih =>
    cases ns with
    | nil => cases sub <;> simp [viewSizes]
    | cons n ns =>
      cases sub with
      | index i => simpa [Sub.isRange] using h _ (List.mem_cons_self ..)
      | range f b e s => simp [viewSizes, ih ns fun x hx => h x (by simp [hx])]

theorem select_append (pre subs : List Sub) (idx : List Int) (h : ∀ s ∈ pre, s.isRange = false) :
    select (pre ++ subs) idx = select pre (select subs idx) := by
  induction pre with
  | nil => rfl
  | cons p pre ih =>
    cases p with
    | index i => simp only [List.cons_append, select, ih fun s hs => h s (by simp [hs])]
    | range f b e s => simpa [Sub.isRange] using h _ (List.mem_cons_self ..)

theorem select_indices (l : List Int) : select (l.map Sub.index) [] = l := by
  induction l with
  | nil => rfl
  | cons i l ih => simp only [List.map_cons, select, ih]

theorem all_view (subs : List Sub) (shape : List (Option Nat)) (dims : List (Int × Int))
    (hs : subs.length ≤ dims.length) (ha : Agrees shape (dims.map Prod.fst)) (hi : ∀ s ∈ subs, s.isRange = true) :
    (items subs shape dims).length = (inferShape subs shape).length ∧
    (viewDims ((items subs shape dims).map fun _ => true) (items subs shape dims) dims).map Prod.fst =
      viewSizes subs (dims.map Prod.fst) ∧
    ∀ idx : List Int, idx.length = dims.length → viewOffset (items subs shape dims) dims +
      dot (viewDims ((items subs shape dims).map fun _ => true) (items subs shape dims) dims) idx = dot dims (select subs idx) := by
  induction dims generalizing subs shape with
  | nil =>
    have h1 : subs = [] := by simpa using hs
    have h2 : shape = [] := by simpa using ha.1
    subst h1 h2
    simp [items, inferShape, viewDims, viewSizes, viewOffset, dot]
  | cons d dims ih =>
    match shape, ha with
    | [], ha => simp [Agrees] at ha
    | n :: shape, ha =>
    rw [List.map_cons] at ha
    obtain ⟨hn, ha'⟩ := agrees_cons ha
    match subs, hs, hi with
    | .index i :: subs, hs, hi => simpa [Sub.isRange] using hi _ (List.mem_cons_self ..)
    | .range f b e s :: subs, hs, hi =>
      obtain ⟨h1, h2, h3⟩ := ih subs shape (by simpa using hs) ha' fun x hx => hi x (by simp [hx])
      refine ⟨by cases f <;> simp [items, inferShape, h1], ?_, ?_⟩
      · simp only [items, List.map_cons, viewDims, if_true, viewSizes, h2]
      · intro idx hidx
        match idx, hidx with
        | x :: xs, hidx =>
          have := h3 xs (by simpa using hidx)
          simp only [items, List.map_cons, viewDims, if_true, viewOffset, select, dot]
          linear_combination this
    | [], hs, hi =>
      obtain ⟨h1, h2, h3⟩ := ih [] shape (by simp) ha' (by simp)
      refine ⟨by simpa [items, inferShape] using h1, ?_, ?_⟩
      · simp only [items, List.map_cons, viewDims, if_true, viewSizes, item_size hn] at h2 ⊢
        rw [h2]
      · intro idx hidx
        match idx, hidx with
        | x :: xs, hidx =>
          have := h3 xs (by simpa using hidx)
          simp only [items, List.map_cons, viewDims, if_true, viewOffset, select, dot] at this ⊢
          linear_combination this

end Marco.ArrMem
