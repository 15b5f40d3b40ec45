import Verif.Lemmas.MCIM
import Verif.Lemmas.RotoBox

/-!
# Incidence matrices with the wider class of access functions `FnLin`
-/

namespace Marco
open Marco.Spec Marco.IndexSet Marco.AccessFn Marco.Props

theorem lin_mapsTo {ne nv : Nat} {f : AccessFn} (hf : FnLin ne nv f) {p : Point}
    (hp : p.length = ne) : ∃ q, q.length = nv ∧ MapsTo f p q := by
  obtain ⟨u, q, a, -, c, -, d⟩ := lin_point hf hp
  exact ⟨q, c, u, a, d⟩

theorem lin_image {ne nv : Nat} {f : AccessFn} (hf : FnLin ne nv f) {s : IndexSet}
    (hs : SetOk ne s) : ∃ t, f.mapSet s = some t ∧ SetOk nv t ∧
      ∀ q, Has t q ↔ ∃ p, Has s p ∧ MapsTo f p q := by
  cases hf with
  | @roto m hm hu ha h1 h2 =>
    subst h1; subst h2
    obtain ⟨t, a, b, c⟩ := roto_mapSet hm hu hs
    refine ⟨t, a, b, fun q => ?_⟩
    rw [c]
    constructor
    · rintro ⟨p, h1, h2⟩; exact ⟨p, h1, (mapsTo_roto hm (has_length hs h1).ge).2 h2⟩
    · rintro ⟨p, h1, h2⟩; exact ⟨p, h1, (mapsTo_roto hm (has_length hs h1).ge).1 h2⟩
  | const h1 h2 h3 => exact simple_image (.const h1 h2 h3) hs

theorem lin_inverse_box {ne nv : Nat} {f : AccessFn} (S : Simplifier) (hf : FnLin ne nv f)
    {acc par : IndexSet} {b : Box} (ha : SetOk nv acc)
    (hd : ∀ cs, (∀ q, Has acc q → q = cs) → DisjL acc.ranges) (hp : SetOk ne par)
    (hb : par.ranges = [b]) (himg : ∀ q, Has acc q → ∃ p, Has par p ∧ MapsTo f p q) :
    ∃ t, f.inverseMap S acc par = some t ∧ SetOk ne t ∧
      ∀ p, Has t p ↔ Has par p ∧ ∃ q, MapsTo f p q ∧ Has acc q := by
  cases hf with
  | @roto m hm hu hs h1 h2 =>
    subst h1; subst h2
    have hpar : ∀ p, Has par p ↔ InB p b := by intro p; simp [Has, InL, hb]
    obtain ⟨t, t1, t2, t3⟩ := roto_inverse_box S hm hs ha hp hb (fun q hq => by
      obtain ⟨p, h1, h2⟩ := himg q hq
      exact ⟨p, (hpar p).1 h1, (mapsTo_roto hm (has_length hp h1).ge).1 h2⟩)
    refine ⟨t, t1, t2, fun p => ?_⟩
    rw [t3, ← hpar]
    constructor
    · rintro ⟨a, q, b, c⟩; exact ⟨a, q, (mapsTo_roto hm (has_length hp a).ge).2 b, c⟩
    · rintro ⟨a, q, b, c⟩; exact ⟨a, q, (mapsTo_roto hm (has_length hp a).ge).1 b, c⟩
  | const h1 h2 h3 => exact simple_inverse S (.const h1 h2 h3) ha hd hp himg

theorem lin_beq {ne nv : Nat} {f g : AccessFn} (hf : FnLin ne nv f) (hg : FnLin ne nv g) :
    f.beq g = true ↔ f = g := by
  cases hf <;> cases hg <;> simp [AccessFn.beq]

theorem lin_addKeys {ne nv : Nat} {g : Group} (hg : GroupLin ne nv g) {t : IndexSet}
    (ht : SetOk ne t) : GroupLin ne nv (g.addKeys t) ∧
      ∀ p, Has (g.addKeys t).keys p ↔ Has g.keys p ∨ Has t p :=
  have h := union_spec hg.keys ht
  ⟨⟨h.1, hg.fn, hg.kind⟩, h.2⟩

theorem lin_build {ne nv : Nat} {f : AccessFn} (hf : FnLin ne nv f) :
    GroupLin ne nv (Group.build f) ∧ (Group.build f).fn = f ∧
      ∀ p, ¬ Has (Group.build f).keys p := by
  cases hf with
  | roto h1 h2 h3 h5 h6 =>
    exact ⟨⟨setOk_empty _, .roto h1 h2 h3 h5 h6, Or.inl rfl⟩, rfl, not_has_empty⟩
  | const h1 h2 h3 =>
    exact ⟨⟨setOk_empty _, .const h1 h2 h3, Or.inr ⟨rfl, _, rfl⟩⟩, rfl, not_has_empty⟩

theorem lin_addToGroup {ne nv : Nat} {f : AccessFn} (hf : FnLin ne nv f) {keys : IndexSet}
    (hk : SetOk ne keys) : ∀ gs : List Group, (∀ g ∈ gs, GroupLin ne nv g) →
      (∀ g ∈ MCIM.addToGroup f keys gs, GroupLin ne nv g) ∧
      ∀ e v, (∃ g ∈ MCIM.addToGroup f keys gs, Has g.keys e ∧ MapsTo g.fn e v) ↔
        (∃ g ∈ gs, Has g.keys e ∧ MapsTo g.fn e v) ∨ (Has keys e ∧ MapsTo f e v) := by
  intro gs
  induction gs with
  | nil =>
    intro _
    obtain ⟨b1, b2, b3⟩ := lin_build hf
    obtain ⟨a1, a2⟩ := lin_addKeys b1 hk
    refine ⟨by simpa [MCIM.addToGroup] using a1, fun e v => ?_⟩
    simp only [MCIM.addToGroup, List.mem_singleton, exists_eq_left, a2, List.not_mem_nil, false_and,
      exists_false, false_or]
    have : ((Group.build f).addKeys keys).fn = f := b2
    rw [this]
    simp [b3 e]
  | cons g gs ih =>
    intro hg
    have hg1 := hg g (by simp)
    by_cases hb : g.fn.beq f = true
    · have hfn := (lin_beq hg1.fn hf).1 hb
      obtain ⟨a1, a2⟩ := lin_addKeys hg1 hk
      simp only [MCIM.addToGroup, hb, if_true]
      refine ⟨?_, fun e v => ?_⟩
      · intro g' h'
        rcases List.mem_cons.1 h' with rfl | h'
        · exact a1
        · exact hg g' (by simp [h'])
      · simp only [List.mem_cons, exists_eq_or_imp, a2]
        have : (g.addKeys keys).fn = f := hfn
        rw [this, hfn, or_and_right]
        exact or_right_comm
    · obtain ⟨i1, i2⟩ := ih (fun g h => hg g (by simp [h]))
      simp only [MCIM.addToGroup, hb]
      refine ⟨?_, fun e v => ?_⟩
      · intro g' h'
        simp only [Bool.false_eq_true, if_false] at h'
        rcases List.mem_cons.1 h' with rfl | h'
        · exact hg1
        · exact i1 g' h'
      · simp only [Bool.false_eq_true, if_false, List.mem_cons, exists_eq_or_imp, i2, or_assoc]

end Marco
