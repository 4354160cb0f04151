import Verif.Cont.RefLemmas
import Verif.Props.ContList
/-!
# C79: arguments may refer to elements

`y ∈ w.m.cons`: `y` is an element that exists, in any container or owned by a node handle. `ys.map w.m.val` are the values the references had before the call.
-/
set_option linter.unusedVariables false
namespace MI.Cont
open MI
variable {V : Type} {w : World V} {i j k l : Nat} {c d : Container V} {H : Host V}

/-- `insert(first,last)` where the range yields references to elements, of this container or of others: as if copies of the values had been made before. -/
theorem C79_insert {em : Bool} {ys : List Id} {n : Nat} (ok : H.Ok) (r : Reach w) (hc : w.cs[i]? = some c) (hy : ∀ y ∈ ys, y ∈ w.m.cons) :
    World.insertRefs H em i w ys n = World.insertRange H em i w (ys.map w.m.val) n := insertRefs_eq ok r hc hy

/-- `insert(position,n,x)` (`ys` repeats one element), `insert(position,first,last)` of sequenced and random access indices. -/
theorem C79_insert_at {S : Spec V} {em : Bool} {s t ys : List Id} {pos : Id} (ok : H.Ok) (r : Reach w) (hc : w.cs[i]? = some c) (hS : c.asked[k]? = some S) (hl : S.list)
    (hk : c.seqs[k]? = some (s ++ t)) (hp : At c.hd pos t) (hy : ∀ y ∈ ys, y ∈ w.m.cons) :
    World.insertRefsAt H em i k pos w ys = World.insertRangeAt H em i k pos w (ys.map w.m.val) := insertRefsAt_eq ok r hc hS hl hk hp hy

/-- `resize(n,x)`, also if the element `x` refers to is among those erased. -/
theorem C79_resize {y : Id} {n : Nat} (ok : H.Ok) (r : Reach w) (hc : w.cs[i]? = some c) (hy : y ∈ w.m.cons) : World.resizeRef H i k w n y = World.resize H false i k w n (w.m.val y) :=
  resizeRef_eq ok r hc hy

/-- `assign(n,x)`, `assign(first,last)` with references to elements of other containers. -/
theorem C79_assign {em : Bool} {ys : List Id} (ok : H.Ok) (r : Reach w) (hc : w.cs[i]? = some c) (hy : ∀ y ∈ ys, y ∈ w.m.cons ∧ y ∉ c.elems) :
    World.assignRefs H em i w ys = World.assignRange H em i w (ys.map w.m.val) := assignRefs_eq ok r hc hy

/-- `assign` with a reference to an element of the container itself reads a destroyed object. -/
theorem C79_assign_own {em : Bool} {y : Id} {ys : List Id} (r : Reach w) (hc : w.cs[i]? = some c) (hy : y ∈ c.elems) : World.assignRefs H em i w (y :: ys) = .ub :=
  assignRefs_own r hc hy

/-- `insert(first,last)` with iterators of any index of another container, which are incremented while this one grows: the elements of the range, `m`, are inserted in its
order. -/
theorem C79_insert_from {em : Bool} {m u v : List Id} {b n : Nat} (ok : H.Ok) (ne : i ≠ j) (r : Reach w) (hc : w.cs[i]? = some c) (hd : w.cs[j]? = some d)
    (hk : d.seqs[l]? = some (u ++ m ++ v)) (hb : m.length ≤ b) :
    World.insertFrom H em i j l (v.headD d.hd) b w ((m ++ v).headD d.hd) n = World.insertRange H em i w (m.map w.m.val) n :=
  insertFrom_eq ok ne r hc hd hk rfl hb

namespace Ex

/-- A container with an ordered non-unique and a sequenced index, and two elements. -/
def wR0 : World Val := ⟨⟨fun _ => (0, 0), [1], []⟩, [Container.new 1 7 [.ord false (fun a b => a.1 < b.1), .seq]], []⟩

theorem wR0_reach : Reach wR0 := by
  refine .ok (o := .new 1 7 [.ord false (fun a b => a.1 < b.1), .seq]) (r := ⟨0, true⟩) (.init (fun _ => (0, 0))) ?_ rfl
  refine ⟨⟨by decide, by decide, by decide⟩, by simp, ?_⟩
  intro a ha
  simp only [List.mem_cons, List.not_mem_nil, or_false] at ha
  rcases ha with rfl | rfl
  · exact sw_fst
  · trivial

def opsR : List (Op Val) := [.insert 0 (5, 1) 11 {} none env, .insert 0 (3, 2) 12 {} none env]

/-- Two copies of the second element are put before the first one in the sequenced index; `resize(4,x)` appends two; `resize(1,x)` erases the element `x` refers to; `assign` reads a destroyed
object. -/
example : ∃ w c, Reach w ∧ w.cs[0]? = some c ∧ c.seqs = [[12, 11], [11, 12]] ∧
    (∀ H : Host Val, H.Ok → World.insertRefsAt H false 0 1 11 w [12, 12] = World.insertRangeAt H false 0 1 11 w [(3, 2), (3, 2)]) ∧
    leaves (World.insertRefsAt (Host.top fun _ => {}) false 0 1 11 w [12, 12]) = some (true, [[[12, 13, 14, 11], [13, 14, 11, 12]]], []) ∧
    leaves (World.resizeRef (Host.top fun _ => {}) 0 1 w 4 11) = some (true, [[[12, 11, 13, 14], [11, 12, 13, 14]]], []) ∧
    leaves (World.resizeRef (Host.top fun _ => {}) 0 1 w 1 12) = some (true, [[[11], [11]]], []) ∧
    World.assignRefs (Host.top fun _ => {}) false 0 w [12, 12] = .ub := by
  have h : (runs wR0 opsR).map (fun w => ((w.cs[0]?).map (·.seqs), w.m.cons, w.m.val 12)) = some (some [[12, 11], [11, 12]], [12, 11], (3, 2)) := by decide +kernel
  have h0 : (runs wR0 opsR).bind (fun w => leaves (World.insertRefsAt (Host.top fun _ => {}) false 0 1 11 w [12, 12])) =
      some (true, [[[12, 13, 14, 11], [13, 14, 11, 12]]], []) := by decide +kernel
  have h1 : (runs wR0 opsR).bind (fun w => leaves (World.resizeRef (Host.top fun _ => {}) 0 1 w 4 11)) = some (true, [[[12, 11, 13, 14], [11, 12, 13, 14]]], []) := by decide +kernel
  have h3 : (runs wR0 opsR).bind (fun w => leaves (World.resizeRef (Host.top fun _ => {}) 0 1 w 1 12)) = some (true, [[[11], [11]]], []) := by decide +kernel
  have h2 : (runs wR0 opsR).map (fun w => decide (∃ c, w.cs[0]? = some c ∧ c.hd = 1 ∧ ∃ L, c.ls[1]? = some L ∧ (match L.spec with | .seq => true | _ => false) = true)) = some true := by
    decide +kernel
  obtain ⟨w, hw, k⟩ := Option.map_eq_some_iff.1 h
  simp only [hw, Option.map_some, Option.bind_some, Option.some.injEq, Prod.mk.injEq, decide_eq_true_eq] at k h0 h1 h2 h3
  obtain ⟨k1, k2, k3⟩ := k
  obtain ⟨c, hc, hd, L, hL, hs⟩ := h2
  rw [hc, Option.map_some, Option.some.injEq] at k1
  have r := runs_reach wR0_reach hw
  have hS : c.asked[1]? = some .seq := by
    rw [Container.asked, List.getElem?_map, hL]
    cases L with
    | seq => rfl
    | _ => exact nomatch hs
  refine ⟨w, c, r, hc, k1, fun H ok => ?_, h0, h1, h3, C79_assign_own r hc (by rw [Container.elems, k1]; decide)⟩
  rw [C79_insert_at (s := []) (t := [11, 12]) (pos := 11) ok r hc hS trivial (by rw [k1]; rfl) rfl (by rw [k2]; decide)]
  simp only [List.map_cons, List.map_nil, k3]

/-- The range 12, 22 of the sequenced index of container 0 of `w4` is inserted in container 1, which rejects the second. -/
example : World.insertFrom (Host.top fun _ => {}) false 1 0 2 23 9 w4 12 0 = World.insertRange (Host.top fun _ => {}) false 1 w4 ([12, 22].map w4.m.val) 0 :=
  C79_insert_from (u := [11]) (m := [12, 22]) (v := [23]) (Host.top_ok _) (by decide) w4_reach hd1 hd0 (by rw [d0_seqs]; rfl) (by decide)

end Ex
end MI.Cont
