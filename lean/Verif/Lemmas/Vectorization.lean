import Verif.Spec.Vectorization
import Mathlib.Tactic

/-! Lemmas about vectorized calls. -/

namespace Marco.Vect
open Marco.Spec

theorem specialize_some : ∀ ds ss ds' : List Dim, ds.length = ss.length → specialize ds ss = some ds' →
    ds'.length = ds.length ∧
    ∀ (i n : Nat), ds'[i]? = some (some n) ↔ (ds[i]? = some (some n) ∨ ss[i]? = some (some n))
  | [], [], ds', _, h => by cases h; simp
  | d :: ds, none :: ss, ds', hl, h => by
    simp only [specialize, Option.map_eq_some_iff] at h
    obtain ⟨e, he, rfl⟩ := h
    obtain ⟨h1, h2⟩ := specialize_some ds ss e (by simpa using hl) he
    refine ⟨by simp [h1], fun i n => ?_⟩
    cases i with
    | zero => simp
    | succ i => simpa using h2 i n
  | some d :: ds, some s :: ss, ds', hl, h => by
    simp only [specialize] at h
    split at h
    · cases h
    · rename_i hds
      simp only [Option.map_eq_some_iff] at h
      obtain ⟨e, he, rfl⟩ := h
      obtain ⟨h1, h2⟩ := specialize_some ds ss e (by simpa using hl) he
      refine ⟨by simp [h1], fun i n => ?_⟩
      cases i with
      | zero => simp at hds ⊢; omega
      | succ i => simpa using h2 i n
  | none :: ds, some s :: ss, ds', hl, h => by
    simp only [specialize, Option.map_eq_some_iff] at h
    obtain ⟨e, he, rfl⟩ := h
    obtain ⟨h1, h2⟩ := specialize_some ds ss e (by simpa using hl) he
    refine ⟨by simp [h1], fun i n => ?_⟩
    cases i with
    | zero => simp
    | succ i => simpa using h2 i n
  | [], _ :: _, _, hl, _ => by simp at hl
  | _ :: _, [], _, hl, _ => by simp at hl

theorem specialize_none : ∀ ds ss : List Dim, specialize ds ss = none →
    ∃ i n m : Nat, n ≠ m ∧ ds[i]? = some (some n) ∧ ss[i]? = some (some m)
  | [], [], h => by simp [specialize] at h
  | d :: ds, none :: ss, h => by
    simp only [specialize, Option.map_eq_none_iff] at h
    obtain ⟨i, n, m, h1, h2, h3⟩ := specialize_none ds ss h
    exact ⟨i + 1, n, m, h1, by simpa, by simpa⟩
  | some d :: ds, some s :: ss, h => by
    simp only [specialize] at h
    split at h
    · rename_i hd
      exact ⟨0, d, s, hd, rfl, rfl⟩
    · simp only [Option.map_eq_none_iff] at h
      obtain ⟨i, n, m, h1, h2, h3⟩ := specialize_none ds ss h
      exact ⟨i + 1, n, m, h1, by simpa, by simpa⟩
  | none :: ds, some s :: ss, h => by
    simp only [specialize, Option.map_eq_none_iff] at h
    obtain ⟨i, n, m, h1, h2, h3⟩ := specialize_none ds ss h
    exact ⟨i + 1, n, m, h1, by simpa, by simpa⟩
  | [], none :: _, h => by simp [specialize] at h
  | [], some _ :: _, h => by simp [specialize] at h
  | _ :: _, [], h => by simp [specialize] at h

theorem take_getElem? {l : List Dim} {k i n : Nat} :
    (l.take k)[i]? = some (some n) ↔ i < k ∧ l[i]? = some (some n) := by
  rw [List.getElem?_take]
  split <;> simp_all

theorem otherArgs_some : ∀ (as : List Arg) (dims d : List Dim), otherArgs dims as = some d →
    d.length = dims.length ∧ (∀ a ∈ as, a.shape.length = a.expected + dims.length) ∧
    ∀ i n : Nat, d[i]? = some (some n) ↔
      (dims[i]? = some (some n) ∨ ∃ a ∈ as, i < dims.length ∧ a.shape[i]? = some (some n))
  | [], dims, d, h => by cases h; simp
  | a :: as, dims, d, h => by
    simp only [otherArgs] at h
    split at h
    · cases h
    · rename_i hl
      simp only [ne_eq, Decidable.not_not] at hl
      simp only [Option.bind_eq_some_iff] at h
      obtain ⟨e, he, h⟩ := h
      obtain ⟨h1, h2⟩ := specialize_some _ _ _ (by simp; omega) he
      obtain ⟨h3, h4, h5⟩ := otherArgs_some as e d h
      refine ⟨by omega, ?_, fun i n => ?_⟩
      · intro b hb
        rcases List.mem_cons.1 hb with rfl | hb
        · exact hl
        · rw [h4 b hb, h1]
      · rw [h5, h2, take_getElem?, h1]
        simp only [List.mem_cons, exists_eq_or_imp, or_assoc]

theorem otherArgs_none : ∀ (as : List Arg) (dims : List Dim), otherArgs dims as = none →
    (∃ a ∈ as, a.shape.length ≠ a.expected + dims.length) ∨
    ∃ i n m : Nat, i < dims.length ∧ n ≠ m ∧
      (dims[i]? = some (some n) ∨ ∃ a ∈ as, a.shape[i]? = some (some n)) ∧
      ∃ a ∈ as, a.shape[i]? = some (some m)
  | [], dims, h => by cases h
  | a :: as, dims, h => by
    simp only [otherArgs] at h
    split at h
    · rename_i hl
      exact .inl ⟨a, by simp, hl⟩
    · rename_i hl
      simp only [ne_eq, Decidable.not_not] at hl
      simp only [Option.bind_eq_none_iff] at h
      cases he : specialize dims (a.shape.take dims.length) with
      | none =>
        obtain ⟨i, n, m, h1, h2, h3⟩ := specialize_none _ _ he
        rw [take_getElem?] at h3
        exact .inr ⟨i, n, m, h3.1, h1, .inl h2, a, by simp, h3.2⟩
      | some e =>
        obtain ⟨h1, h2⟩ := specialize_some _ _ _ (by simp; omega) he
        rcases otherArgs_none as e (h e he) with ⟨b, hb, hbl⟩ | ⟨i, n, m, hi, hnm, hn, b, hb, hm⟩
        · exact .inl ⟨b, by simp [hb], by rw [← h1]; exact hbl⟩
        · refine .inr ⟨i, n, m, by omega, hnm, ?_, b, by simp [hb], hm⟩
          rcases hn with hn | ⟨c, hc, hn⟩
          · rw [h2, take_getElem?] at hn
            rcases hn with hn | hn
            · exact .inl hn
            · exact .inr ⟨a, by simp, hn.2⟩
          · exact .inr ⟨c, by simp [hc], hn⟩

/-- Dimensions of which the same is known are the same. -/
theorem dims_ext {d e : List Dim} (hl : d.length = e.length)
    (h : ∀ i n : Nat, d[i]? = some (some n) ↔ e[i]? = some (some n)) : d = e := by
  refine List.ext_getElem? fun i => ?_
  by_cases hi : i < d.length
  · have hi' : i < e.length := by omega
    rw [List.getElem?_eq_getElem hi, List.getElem?_eq_getElem hi']
    congr 1
    have := h i
    rw [List.getElem?_eq_getElem hi, List.getElem?_eq_getElem hi'] at this
    cases hd : d[i] with
    | none =>
      cases he : e[i] with
      | none => rfl
      | some n =>
        have := (this n).2 (by rw [he])
        rw [hd] at this
        cases this
    | some n =>
      have := (this n).1 (by rw [hd])
      rw [Option.some.injEq] at this
      exact this.symm
  · rw [List.getElem?_eq_none (by omega), List.getElem?_eq_none (by omega)]

theorem vectorizedDims_iff (a : Arg) (as : List Arg) (d : List Dim) (hf : a.expected ≤ a.shape.length)
    (hw : (∀ b ∈ a :: as, Whole b) ∨ ∀ b ∈ a :: as, ¬ Whole b) :
    vectorizedDims (a :: as) = some d ↔ CallDims (a :: as) d := by
  simp only [vectorizedDims]
  have hlen : (a.shape.take (a.shape.length - a.expected)).length = a.shape.length - a.expected := by
    simp
  rcases hw with hw | hw
  · -- every argument is passed as it is
    have h0 : a.shape.take (a.shape.length - a.expected) = [] := by
      rw [hw a (by simp)]; simp
    rw [h0]
    constructor
    · intro h
      obtain ⟨h1, -, -⟩ := otherArgs_some _ _ _ h
      have : d = [] := List.length_eq_zero_iff.1 (by simpa using h1)
      subst this
      exact ⟨fun b hb => .inl (hw b hb), by simp, by simp⟩
    · rintro ⟨-, h2, -⟩
      have : d = [] := by
        by_contra hd
        obtain ⟨b, hb, hb'⟩ := h2 hd
        exact hb' (hw b hb)
      subst this
      cases h : otherArgs [] as with
      | none =>
        rcases otherArgs_none _ _ h with ⟨b, hb, hbl⟩ | ⟨i, n, m, hi, -⟩
        · exact absurd (hw b (by simp [hb])) (by simpa [Whole] using hbl)
        · simp at hi
      | some e =>
        have := (otherArgs_some _ _ _ h).1
        rw [List.length_eq_zero_iff.1 (by simpa using this : e.length = 0)]
  · have hle : a.shape.length ≠ a.expected := hw a (by simp)
    constructor
    · intro h
      obtain ⟨h1, h2, h3⟩ := otherArgs_some _ _ _ h
      rw [hlen] at h1 h2 h3
      refine ⟨fun b hb => .inr ?_, fun _ => ⟨a, by simp, hw a (by simp)⟩, fun i n hi => ?_⟩
      · rcases List.mem_cons.1 hb with rfl | hb'
        · exact ⟨by omega, fun i n hi hn => (h3 i n).2 (.inl (take_getElem?.2 ⟨by omega, hn⟩))⟩
        · exact ⟨by rw [h2 b hb', h1], fun i n hi hn => (h3 i n).2 (.inr ⟨b, hb', by omega, hn⟩)⟩
      · rcases (h3 i n).1 hi with h | ⟨b, hb, -, hn⟩
        · exact ⟨a, by simp, hw a (by simp), (take_getElem?.1 h).2⟩
        · exact ⟨b, by simp [hb], hw b (by simp [hb]), hn⟩
    · rintro ⟨h1, -, h3⟩
      have hfit : ∀ b ∈ a :: as, Fits d b := fun b hb => (h1 b hb).resolve_left (hw b hb)
      have hd : d.length = a.shape.length - a.expected := by
        have := (hfit a (by simp)).1
        omega
      cases h : otherArgs (a.shape.take (a.shape.length - a.expected)) as with
      | none =>
        exfalso
        rcases otherArgs_none _ _ h with ⟨b, hb, hbl⟩ | ⟨i, n, m, hi, hnm, hn, b, hb, hm⟩
        · rw [hlen, ← hd] at hbl
          exact hbl (hfit b (by simp [hb])).1
        · rw [hlen, ← hd] at hi
          have e1 := (hfit b (by simp [hb])).2 i m hi hm
          have e2 : d[i]? = some (some n) := by
            rcases hn with hn | ⟨c, hc, hn⟩
            · exact (hfit a (by simp)).2 i n hi (take_getElem?.1 hn).2
            · exact (hfit c (by simp [hc])).2 i n hi hn
          rw [e1] at e2
          simp only [Option.some.injEq] at e2
          exact hnm e2.symm
      | some e =>
        obtain ⟨g1, g2, g3⟩ := otherArgs_some _ _ _ h
        rw [hlen] at g1 g3
        refine congrArg some (dims_ext (by omega) fun i n => ?_)
        rw [g3]
        constructor
        · rintro (h | ⟨b, hb, hi, hn⟩)
          · rw [take_getElem?] at h
            exact (hfit a (by simp)).2 i n (by omega) h.2
          · exact (hfit b (by simp [hb])).2 i n (by omega) hn
        · intro hi
          have hlt : i < d.length := by
            by_contra hc
            rw [List.getElem?_eq_none (by omega)] at hi
            cases hi
          obtain ⟨b, hb, -, hn⟩ := h3 i n hi
          rcases List.mem_cons.1 hb with rfl | hb
          · exact .inl (take_getElem?.2 ⟨by omega, hn⟩)
          · exact .inr ⟨b, hb, by omega, hn⟩

theorem otherArgsRank_eq : ∀ (as : List Arg) (dims : List Dim), dims ≠ [] →
    otherArgsRank dims as = ((otherArgs dims as).map (·.length)).getD 0
  | [], dims, _ => by simp [otherArgsRank, otherArgs]
  | a :: as, dims, hd => by
    have hpos : 0 < dims.length := List.length_pos_iff.2 hd
    simp only [otherArgsRank, otherArgs]
    by_cases h1 : a.shape.length ≤ a.expected
    · rw [if_pos h1, if_pos (by omega)]
      rfl
    · rw [if_neg h1]
      by_cases h2 : a.shape.length = a.expected + dims.length
      · rw [if_neg (by simpa using h2), if_neg (by simpa using h2)]
        cases he : specialize dims (a.shape.take dims.length) with
        | none => rfl
        | some e =>
          have hl := (specialize_some _ _ _ (by simp; omega) he).1
          simp only [Option.bind_some]
          exact otherArgsRank_eq as e (by rintro rfl; simp at hl; omega)
      · rw [if_pos h2, if_pos h2]
        rfl

end Marco.Vect
