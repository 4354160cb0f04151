import Verif.Ser.OldIter
import Verif.Props.SerIter
/-! C68: iterators of hashed indices in archives of version 0. -/
namespace MI.Ser
open MI MI.Cont
variable {V : Type} {w : World V} {i k : Nat} {c : Container V}

theorem end_bucket {h : Hash.Heap} {a : Hash.Arr} {hd : Id} {T : Hash.Tab} (r : Hash.Rep h a hd T) : h.prior a.endB = hd := by
  have ch := r.ring
  unfold Hash.Ring at ch
  rw [show Hash.close hd a.endB (T.flat a.base) = T.flat a.base ++ (some a.endB, .one hd) :: [] from rfl, Hash.Chain.append] at ch
  obtain ⟨-, ⟨-, -, j3⟩, -⟩ := ch
  exact j3 _ rfl

/-- Iterators to elements are read as such, iterators at the end as the end of the index; local iterators at the end of their bucket, which used to be written as the end of the index, are read
as what such iterators are now: without a node. -/
theorem C68_version0 (r : Reach w) (hi : w.cs[i]? = some c) {cat : Hash.Cat} {eq : V → V → Bool} {hf : V → Nat} {pol : Pol} {ml : Nat} {h : Hash.Heap} {a : Hash.Arr}
    (hL : c.ls[k]? = some (.hash cat eq hf pol ml h a)) {es : List Id} (p : c.elems.Perm es) :
    (∀ loc n x, es[n]? = some x → loadOld loc true h a es c.hd (.known n) = .ok (some x)) ∧
    loadOld false true h a es c.hd (.known es.length) = .ok (some c.hd) ∧ loadOld true true h a es c.hd (.known es.length) = .ok none ∧
    ∀ loc arr, loadOld loc arr h a es c.hd .null = .ok none := by
  have I := r.inv
  obtain ⟨hc, s, -⟩ := I.facts hi
  obtain ⟨xs, hxs, hH, hp⟩ := fit_get s.fit hL
  obtain ⟨-, -, T, rp, -, eT⟩ := hH
  have hb := end_bucket rp
  have nd := rp.nd
  refine ⟨fun loc n x hn => ?_, ?_, ?_, fun loc arr => ?_⟩
  · have hlt := (List.getElem?_eq_some_iff.1 hn).1
    have hx : x ≠ c.hd := by
      rintro rfl
      have : c.hd ∈ T.nodes := by rw [eT]; exact hp.mem_iff.2 (p.mem_iff.2 (List.mem_of_getElem? hn))
      exact (List.nodup_cons.1 nd).1 this
    have hne : n ≠ es.length := by omega
    cases loc <;> simp [loadOld, loadIt, hne, hn, oldLocal, hb, hx]
  · simp [loadOld, loadIt]
  · simp [loadOld, loadIt, oldLocal, hb]
  · cases loc <;> cases arr <;> simp [loadOld, loadIt, oldLocal]

open Ex MI.Cont.Ex

/-- The hypotheses can be met: the hashed index of container 0. -/
example : ∃ cat eq hf pol ml h a, e0.ls[2]? = some (.hash cat eq hf pol ml h a) ∧ loadOld true true h a e0.elems e0.hd (.known 5) = .ok none ∧
    loadOld true true h a e0.elems e0.hd (.known 2) = .ok (some 12) ∧ loadOld false true h a e0.elems e0.hd (.known 5) = .ok (some 1) := by
  have hk : (match e0.ls[2]? with | some (.hash ..) => true | _ => false) = true := by decide +kernel
  split at hk
  · rename_i cat eq hf pol ml h a e
    obtain ⟨h1, h2, h3, -⟩ := C68_version0 v3_reach he0 e (.refl _)
    have l : e0.elems.length = 5 ∧ e0.elems[2]? = some 12 ∧ e0.hd = 1 := by decide +kernel
    rw [l.1] at h2 h3
    refine ⟨cat, eq, hf, pol, ml, h, a, e, h3, h1 true 2 12 l.2.1, ?_⟩
    rw [h2, l.2.2]
  · exact absurd hk Bool.false_ne_true

end MI.Ser
