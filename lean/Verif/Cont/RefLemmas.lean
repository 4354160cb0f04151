import Verif.Cont.RefApi
import Verif.Cont.ListLemmas3
/-!
References stay valid and keep their values while the loops of `Cont.RefApi` insert.
-/
set_option linter.unusedVariables false
namespace MI.Cont
open MI
variable {V : Type} {w w' : World V} {i j k l : Nat} {c c' d : Container V} {H : Host V}

theorem read_some {y : Id} (h : y ∈ w.m.cons) : w.read y = some (w.m.val y) := if_pos h

/-- What an insertion that returns leaves as it was. -/
theorem feed_keeps {em : Bool} {n : Nat} {v : V} {w1 : World V} {ret : Ret} (ok : H.Ok) (r : Reach w) (hi : w.cs[i]? = some c) (e : w.step (insertOp H em i w n v none) = .ok (w1, ret)) :
    Reach w1 ∧ (∃ c1, w1.cs[i]? = some c1) ∧ (∀ z ∈ w.m.cons, z ∈ w1.m.cons ∧ w1.m.val z = w.m.val z) ∧ ∀ j, j ≠ i → w1.cs[j]? = w.cs[j]? := by
  have far : ∀ {c1 : Container V}, OnlyAt w w1 i c c1 → ∀ j, j ≠ i → w1.cs[j]? = w.cs[j]? := fun o j hj => by rw [o.cs, List.getElem?_set_ne (Ne.symm hj)]
  cases feed_step (em := em) (t := n) (v := v) (hint := none) ok r hi (fun p e => nomatch e) with
  | took w2 x c1 k1 r1 o hcnt ha hx hal hco hhs hval hcl =>
    rw [k1] at e; cases e
    exact ⟨r1, ⟨c1, o.post⟩, fun z hz => ⟨by rw [hco]; exact List.mem_cons_of_mem _ hz, hval z hz⟩, far o⟩
  | left w2 y c1 k1 r1 o hcnt ha sm hy hcl =>
    rw [k1] at e; cases e
    exact ⟨r1, ⟨c1, o.post⟩, fun z hz => ⟨by rw [sm.cons]; exact hz, sm.val z hz⟩, far o⟩
  | threw w2 c1 ret k1 => rw [k1] at e; cases e

theorem map_kept {w1 : World V} {ys : List Id} (h : ∀ z ∈ w.m.cons, z ∈ w1.m.cons ∧ w1.m.val z = w.m.val z) (hy : ∀ y ∈ ys, y ∈ w.m.cons) : ys.map w1.m.val = ys.map w.m.val :=
  List.map_congr_left fun y hyy => (h y (hy y hyy)).2

theorem insertRefs_eq {em : Bool} (ok : H.Ok) : ∀ {ys : List Id} {w : World V} {c : Container V} {n : Nat}, Reach w → w.cs[i]? = some c → (∀ y ∈ ys, y ∈ w.m.cons) →
    World.insertRefs H em i w ys n = World.insertRange H em i w (ys.map w.m.val) n
  | [], _, _, _, _, _, _ => rfl
  | y :: ys, w, c, n, r, hi, hy => by
    simp only [World.insertRefs, read_some (hy y List.mem_cons_self), List.map_cons, World.insertRange]
    cases e : w.step (insertOp H em i w n (w.m.val y) none) with
    | ok p =>
      obtain ⟨w1, ret⟩ := p
      obtain ⟨r1, ⟨c1, h1⟩, kp, -⟩ := feed_keeps ok r hi e
      have hy' : ∀ y ∈ ys, y ∈ w.m.cons := fun z hz => hy z (List.mem_cons_of_mem _ hz)
      simp only
      rw [insertRefs_eq ok r1 h1 (fun z hz => (kp z (hy' z hz)).1), map_kept kp hy']
    | threw => rfl
    | ub => rfl
    | hang => rfl

theorem pushEachRef_eq {em : Bool} (ok : H.Ok) : ∀ {ys : List Id} {w : World V} {c : Container V} {n m : Nat}, Reach w → w.cs[i]? = some c → (∀ y ∈ ys, y ∈ w.m.cons) →
    World.pushEachRef H em i w ys n m = World.pushEach H em i w (ys.map w.m.val) n m
  | [], _, _, _, _, _, _, _ => rfl
  | y :: ys, w, c, n, m, r, hi, hy => by
    simp only [World.pushEachRef, read_some (hy y List.mem_cons_self), List.map_cons, World.pushEach]
    cases e : w.step (insertOp H em i w n (w.m.val y) none) with
    | ok p =>
      obtain ⟨w1, ret⟩ := p
      obtain ⟨r1, ⟨c1, h1⟩, kp, -⟩ := feed_keeps ok r hi e
      have hy' : ∀ y ∈ ys, y ∈ w.m.cons := fun z hz => hy z (List.mem_cons_of_mem _ hz)
      simp only
      rw [pushEachRef_eq ok r1 h1 (fun z hz => (kp z (hy' z hz)).1), map_kept kp hy']
    | threw => rfl
    | ub => rfl
    | hang => rfl

theorem insertEachRef_eq {S : Spec V} {em : Bool} {t : List Id} {pos : Id} (ok : H.Ok) (hl : S.list) : ∀ {ys s : List Id} {w : World V} {c : Container V} {n : Nat}, Reach w → w.cs[i]? = some c →
    c.asked[k]? = some S → c.seqs[k]? = some (s ++ t) → At c.hd pos t → (∀ y ∈ ys, y ∈ w.m.cons) →
    World.insertEachRef H em i k pos w ys n = World.insertEach H em i k pos w (ys.map w.m.val) n
  | [], _, _, _, _, _, _, _, _, _, _ => rfl
  | y :: ys, s, w, c, n, r, hi, hS, hk, hp, hy => by
    have hy' : ∀ y ∈ ys, y ∈ w.m.cons := fun z hz => hy z (List.mem_cons_of_mem _ hz)
    have key : ∀ {w1 : World V} {c1 : Container V} {done : List V} {took : List Id}, InsertedAt w w1 i k c c1 s t done took → ∀ z ∈ w.m.cons, z ∈ w1.m.cons ∧ w1.m.val z = w.m.val z :=
      fun g z hz => ⟨by rw [g.cons]; exact List.mem_append_right _ hz, g.val z hz⟩
    simp only [World.insertEachRef, read_some (hy y List.mem_cons_self), List.map_cons, World.insertEach]
    cases insertAt_spec (em := em) (n := n) (v := w.m.val y) ok r hi hS hl hk hp with
    | took w1 x c1 k1 r1 g hx hcl =>
      simp only [k1]
      rw [insertEachRef_eq (s := s ++ [x]) ok hl r1 g.only.post (by rw [g.only.asked]; exact hS) (by simpa using g.inlaid.after) (by rw [g.only.hd]; exact hp)
        (fun z hz => (key g z (hy' z hz)).1), map_kept (key g) hy']
    | left w1 y c1 k1 r1 g un hy hcl =>
      simp only [k1]
      rw [insertEachRef_eq (s := s) ok hl r1 g.only.post (by rw [g.only.asked]; exact hS) (by simpa using g.inlaid.after) (by rw [g.only.hd]; exact hp)
        (fun z hz => (key g z (hy' z hz)).1), map_kept (key g) hy']
    | threw w1 c1 ret k1 => simp only [k1]

theorem insertRefsAt_eq {S : Spec V} {em : Bool} {s t ys : List Id} {pos : Id} (ok : H.Ok) (r : Reach w) (hi : w.cs[i]? = some c) (hS : c.asked[k]? = some S) (hl : S.list)
    (hk : c.seqs[k]? = some (s ++ t)) (hp : At c.hd pos t) (hy : ∀ y ∈ ys, y ∈ w.m.cons) :
    World.insertRefsAt H em i k pos w ys = World.insertRangeAt H em i k pos w (ys.map w.m.val) := by
  simp only [World.insertRefsAt, World.insertRangeAt, hi]
  rw [insertEachRef_eq ok hl r hi hS hk hp hy, pushEachRef_eq ok r hi hy]
  rfl

theorem resizeRef_eq {y : Id} {n : Nat} (ok : H.Ok) (r : Reach w) (hi : w.cs[i]? = some c) (hy : y ∈ w.m.cons) : World.resizeRef H i k w n y = World.resize H false i k w n (w.m.val y) := by
  simp only [World.resizeRef, World.resize, hi]
  rw [insertRefs_eq ok r hi (fun z hz => by rw [(List.mem_replicate.1 hz).2]; exact hy), List.map_replicate]
  rfl

/-- References to elements of other containers. -/
theorem assignRefs_eq {em : Bool} {ys : List Id} (ok : H.Ok) (r : Reach w) (hi : w.cs[i]? = some c) (hy : ∀ y ∈ ys, y ∈ w.m.cons ∧ y ∉ c.elems) :
    World.assignRefs H em i w ys = World.assignRange H em i w (ys.map w.m.val) := by
  have lg : w.Legal (.clear i) := (List.getElem?_eq_some_iff.1 hi).1
  obtain ⟨w1, c0, c1, k1, o, k2, k3, k4⟩ := eff_clear r.inv lg
  obtain rfl := Option.some.inj (o.pre.symm.trans hi)
  simp only [World.assignRefs, World.assignRange, k1]
  have kp : ∀ y ∈ ys, y ∈ w1.m.cons ∧ w1.m.val y = w.m.val y := fun y h =>
    ⟨(k2.1 y).2 (hy y h), by rw [k2.2.2.1]⟩
  rw [insertRefs_eq ok (r.ok lg k1) o.post (fun y h => (kp y h).1), List.map_congr_left fun y h => (kp y h).2]

/-- A reference to an element of the container itself. -/
theorem assignRefs_own {em : Bool} {y : Id} {ys : List Id} (r : Reach w) (hi : w.cs[i]? = some c) (hy : y ∈ c.elems) : World.assignRefs H em i w (y :: ys) = .ub := by
  have lg : w.Legal (.clear i) := (List.getElem?_eq_some_iff.1 hi).1
  obtain ⟨w1, c0, c1, k1, o, k2, k3, k4⟩ := eff_clear r.inv lg
  obtain rfl := Option.some.inj (o.pre.symm.trans hi)
  have : w1.read y = none := if_neg fun h => ((k2.1 y).1 h).2 hy
  simp only [World.assignRefs, k1, World.insertRefs, this]

theorem insertFrom_eq {em : Bool} {last : Id} (ok : H.Ok) (ne : i ≠ j) : ∀ {m u v : List Id} {b n : Nat} {w : World V} {c d : Container V}, Reach w → w.cs[i]? = some c → w.cs[j]? = some d →
    d.seqs[l]? = some (u ++ m ++ v) → last = v.headD d.hd → m.length ≤ b →
    World.insertFrom H em i j l last b w ((m ++ v).headD d.hd) n = World.insertRange H em i w (m.map w.m.val) n
  | [], u, v, b, n, w, c, d, r, hi, hj, h, hla, hb => by
    cases b <;> simp only [World.insertFrom, List.nil_append, hla, if_true, List.map_nil, World.insertRange]
  | x :: m, u, v, b + 1, n, w, c, d, r, hi, hj, h, hla, hb => by
    have I := r.inv
    have nd := I.seq_nodup hj h
    have h' : d.seqs[l]? = some (u ++ x :: (m ++ v)) := by rw [h]; simp
    obtain ⟨-, -, -, hpm, -⟩ := I.seq hj h
    have hc : ∀ z ∈ x :: m, z ∈ w.m.cons := fun z hz => (I.facts hj).2.2.2.2.1 z (hpm.mem_iff.1 (by
      rcases List.mem_cons.1 hz with rfl | hz
      · simp
      · simp [hz]))
    have hne : ¬ (x = last) := by rw [hla]; exact headD_ne nd
    show World.insertFrom H em i j l last (b + 1) w x n = _
    simp only [World.insertFrom, if_neg hne, read_some (hc x List.mem_cons_self), List.map_cons, World.insertRange]
    cases e : w.step (insertOp H em i w n (w.m.val x) none) with
    | ok p =>
      obtain ⟨w1, ret⟩ := p
      obtain ⟨r1, ⟨c1, h1⟩, kp, far⟩ := feed_keeps ok r hi e
      have hj1 : w1.cs[j]? = some d := by rw [far j (Ne.symm ne)]; exact hj
      simp only [nextOf_spec r1.inv hj1 h']
      rw [insertFrom_eq ok ne (u := u ++ [x]) r1 h1 hj1 (by rw [h]; simp) hla (by simpa using hb), map_kept kp (fun z hz => hc z (List.mem_cons_of_mem _ hz))]
    | threw => rfl
    | ub => rfl
    | hang => rfl

end MI.Cont
