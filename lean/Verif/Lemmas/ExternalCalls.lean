import Verif.Lemmas.ArrayMemory
import Verif.Spec.ExternalCalls

/-! # Lemmas on the calls of external functions -/

namespace Marco.ExtCall
open Marco.ArrMem Marco.Spec.ArrMem Marco.Spec.ExtCall

theorem sizes_cast (m : MemRef) (h : ∀ d ∈ m.dims, 0 ≤ d.1) :
    (sizes m).map (fun (n : Nat) => (n : Int)) = m.dims.map Prod.fst := by
  unfold sizes
  rw [List.map_map]
  refine List.map_congr_left ?_
  intro d hd
  exact Int.toNat_of_nonneg (h d hd)

theorem foldr_cast (ns : List Nat) :
    ((ns.foldr (· * ·) 1 : Nat) : Int) = (ns.map fun (n : Nat) => (n : Int)).foldr (· * ·) 1 := by
  induction ns with
  | nil => rfl
  | cons n ns ih => simp only [List.foldr_cons, List.map_cons, Nat.cast_mul, ih]

theorem rowDims_sizes (ns : List Nat) : (rowDims ns).map Prod.fst = ns.map fun (n : Nat) => (n : Int) := by
  induction ns with
  | nil => rfl
  | cons n ns ih => simp only [rowDims, List.map_cons, ih]

theorem rows_addr (ns : List Nat) (idx : List Int) :
    (rows ns).addr idx = place (ns.map fun (n : Nat) => (n : Int)) idx := by
  have : ∀ idx, dot (rowDims ns) idx = place (ns.map fun (n : Nat) => (n : Int)) idx := by
    induction ns with
    | nil => intro idx; cases idx <;> rfl
    | cons n ns ih =>
      intro idx
      cases idx with
      | nil => rfl
      | cons i idx =>
        simp only [rowDims, dot, List.map_cons, place, ih, foldr_cast]
  simp only [MemRef.addr, rows, this, zero_add]

theorem within_cons {n : Int} {ns : List Int} {i : Int} {idx : List Int} (h : Within (n :: ns) (i :: idx)) :
    0 ≤ i ∧ i < n ∧ Within ns idx := by
  obtain ⟨h1, h2⟩ := h
  obtain ⟨h3, h4⟩ := h2 0 i n rfl rfl
  refine ⟨h3, h4, by simpa using h1, ?_⟩
  intro k j m hj hm
  exact h2 (k + 1) j m (by simpa using hj) (by simpa using hm)

theorem place_bounds (ns idx : List Int) (h : Within ns idx) :
    0 ≤ place ns idx ∧ place ns idx < ns.foldr (· * ·) 1 := by
  induction ns generalizing idx with
  | nil => cases idx <;> simp [place]
  | cons n ns ih =>
    cases idx with
    | nil => exact absurd h.1 (by simp)
    | cons i idx =>
      obtain ⟨h1, h2, h3⟩ := within_cons h
      obtain ⟨h4, h5⟩ := ih idx h3
      simp only [place, List.foldr_cons]
      constructor
      · have := mul_nonneg h1 (le_trans h4 h5.le)
        omega
      · nlinarith

theorem place_inj (ns i j : List Int) (hi : Within ns i) (hj : Within ns j) (h : place ns i = place ns j) : i = j := by
  induction ns generalizing i j with
  | nil =>
    have h1 : i = [] := by simpa using hi.1
    have h2 : j = [] := by simpa using hj.1
    rw [h1, h2]
  | cons n ns ih =>
    match i, j, hi, hj with
    | [], _, hi, _ => exact absurd hi.1 (by simp)
    | _ :: _, [], _, hj => exact absurd hj.1 (by simp)
    | a :: i, b :: j, hi, hj =>
      obtain ⟨-, -, h3⟩ := within_cons hi
      obtain ⟨-, -, k3⟩ := within_cons hj
      obtain ⟨h4, h5⟩ := place_bounds ns i h3
      obtain ⟨k4, k5⟩ := place_bounds ns j k3
      simp only [place] at h
      have hab : a = b := by
        rcases lt_trichotomy a b with hlt | he | hlt
        · nlinarith
        · exact he
        · nlinarith
      subst hab
      rw [ih i j h3 k3 (by omega)]

theorem copyLoop_spec (cast : Int → Int) (ns : List Nat) (src dst : MemRef) (smem dmem : Int → Int)
    (hinj : ∀ i j, Within (ns.map fun (n : Nat) => (n : Int)) i → Within (ns.map fun (n : Nat) => (n : Int)) j →
      dst.addr i = dst.addr j → i = j) :
    (∀ idx, Within (ns.map fun (n : Nat) => (n : Int)) idx →
      copyLoop cast ns src dst smem dmem (dst.addr idx) = cast (smem (src.addr idx))) ∧
    (∀ a, (∀ idx, Within (ns.map fun (n : Nat) => (n : Int)) idx → dst.addr idx ≠ a) →
      copyLoop cast ns src dst smem dmem a = dmem a) := by
  have hmem : ∀ p, p ∈ visits ns [] ↔ Within (ns.map fun (n : Nat) => (n : Int)) p := by
    intro p
    rw [mem_visits]
    simp
  unfold copyLoop
  rw [loopNest_eq]
  have key := foldl_store dst (fun p => cast (smem (src.addr p))) (visits ns []) dmem
  constructor
  · intro idx hw
    obtain ⟨q, hq, hqa, hqe⟩ := (key (dst.addr idx)).2 idx ((hmem idx).2 hw) rfl
    have := hinj q idx ((hmem q).1 hq) hw hqa
    subst this
    exact hqe
  · intro a h
    exact (key a).1 fun p hp => h p ((hmem p).1 hp)

theorem pointer_spec (w : Widths) (garbage mem : Int → Int) (t : Ty) (m : MemRef) (hp : ∀ d ∈ m.dims, 0 ≤ d.1)
    (hs : sameTy w t = false ∨ Plain m) (idx : List Int) (hi : Within (m.dims.map Prod.fst) idx) :
    pointer w garbage mem t m (place (m.dims.map Prod.fst) idx) =
      (if sameTy w t then id else toC w t) (mem (m.addr idx)) := by
  unfold pointer
  cases hst : sameTy w t with
  | true =>
    rw [hst] at hs
    rcases hs with hs | hs
    · exact absurd hs (by simp)
    · simp [hs idx hi]
  | false =>
    simp only [Bool.false_eq_true, if_false]
    have hsz := sizes_cast m hp
    have h := (copyLoop_spec (toC w t) (sizes m) m (rows (sizes m)) mem garbage (by
      intro i j hi hj h
      rw [rows_addr, rows_addr] at h
      exact place_inj _ i j hi hj h)).1 idx (by rw [hsz]; exact hi)
    rw [rows_addr, hsz] at h
    exact h

theorem back_spec (w : Widths) (t : Ty) (m : MemRef) (new mem : Int → Int) (hp : Proper m)
    (hs : sameTy w t = false ∨ Plain m) (idx : List Int) (hi : Within (m.dims.map Prod.fst) idx) :
    back w t m new mem (m.addr idx) =
      (if sameTy w t then id else fromC w t) (new (place (m.dims.map Prod.fst) idx)) := by
  unfold back
  cases hst : sameTy w t with
  | true =>
    rw [hst] at hs
    rcases hs with hs | hs
    · exact absurd hs (by simp)
    · simp [hs idx hi]
  | false =>
    simp only [Bool.false_eq_true, if_false]
    have hsz := sizes_cast m hp.1
    have h := (copyLoop_spec (fromC w t) (sizes m) (rows (sizes m)) m new mem (by
      rw [hsz]
      exact hp.2)).1 idx (by rw [hsz]; exact hi)
    rw [rows_addr, hsz] at h
    exact h

/-- The buffer of an argument. -/
def Arg.buf? : Arg → Option Nat
  | .scalar _ _ => none
  | .array _ b _ => some b

theorem bufs_array (t : Ty) (b : Nat) (m : MemRef) (args : List Arg) :
    (Arg.array t b m :: args).filterMap Arg.buf? = b :: args.filterMap Arg.buf? := rfl

theorem backAll_other (w : Widths) (new : Nat → Int → Int) (k : Nat) (args : List Arg) (mem : Nat → Int → Int) (c : Nat)
    (h : c ∉ args.filterMap Arg.buf?) : backAll w new k args mem c = mem c := by
  induction args generalizing k with
  | nil => rfl
  | cons a args ih =>
    cases a with
    | scalar t v => exact ih (k + 1) h
    | array t b m =>
      rw [bufs_array, List.mem_cons, not_or] at h
      simp only [backAll, if_neg h.1]
      exact ih (k + 1) h.2

theorem backAll_array (w : Widths) (new : Nat → Int → Int) (k j : Nat) (args : List Arg) (mem : Nat → Int → Int)
    (hd : (args.filterMap Arg.buf?).Nodup) (t : Ty) (b : Nat) (m : MemRef) (hj : args[j]? = some (.array t b m)) :
    backAll w new k args mem b = back w t m (new (k + j)) (mem b) := by
  induction args generalizing k j with
  | nil => simp at hj
  | cons a args ih =>
    cases j with
    | zero =>
      simp only [List.getElem?_cons_zero, Option.some.injEq] at hj
      subst hj
      rw [bufs_array, List.nodup_cons] at hd
      simp only [backAll, if_true, Nat.add_zero]
      rw [backAll_other w new (k + 1) args mem b hd.1]
    | succ j =>
      simp only [List.getElem?_cons_succ] at hj
      cases a with
      | scalar t' v =>
        have := ih (k + 1) j (by simpa [List.filterMap_cons, Arg.buf?] using hd) hj
        rw [show k + 1 + j = k + (j + 1) by omega] at this
        exact this
      | array t' b' m' =>
        rw [bufs_array, List.nodup_cons] at hd
        have hmem : b ∈ args.filterMap Arg.buf? := by
          rw [List.mem_filterMap]
          exact ⟨_, List.mem_of_getElem? hj, rfl⟩
        have hne : b ≠ b' := fun he => hd.1 (he ▸ hmem)
        have := ih (k + 1) j hd.2 hj
        rw [show k + 1 + j = k + (j + 1) by omega] at this
        simp only [backAll, if_neg hne]
        exact this

end Marco.ExtCall
