import Verif.Cont.TwinStep3
import Verif.Cont.TwinRejected
import Verif.Cont.Example
/-!
C76: what a program sees of its containers is determined by its history of operations; addresses, numbers of buckets and moments of rehashing do not matter.
-/
namespace MI.Cont
open MI

variable {V : Type} {g : Prop} {φ ψ : Id → Id} {w v : World V}

/-- Two programs with the same history have corresponding elements with the same values, in corresponding containers and handles, and corresponding elements are in
the same order in every index; in a hashed index, elements with different keys may be in any order, and those with the same key are in the same order if no
operation changed such a key (`g`). -/
theorem C76_same_history (t : Twins g φ w v) : w.Alike g φ v := t.spec.2.2

/-- The values found by iterating over the indices. -/
theorem C76_sequences (t : Twins g φ w v) {i : Nat} {c d : Container V} (hc : w.cs[i]? = some c) (hd : v.cs[i]? = some d) :
    d.asked = c.asked ∧ d.count = c.count ∧ ∀ (k : Nat) (S : Spec V) (xs ys : List Id), c.asked[k]? = some S → c.seqs[k]? = some xs → d.seqs[k]? = some ys →
      match S with
      | .hash _ eq _ => (ys.map v.m.val).Perm (xs.map w.m.val) ∧ (g → ∀ a, (ys.map v.m.val).filter (eq a) = (xs.map w.m.val).filter (eq a))
      | _ => ys.map v.m.val = xs.map w.m.val := by
  obtain ⟨r, r', A⟩ := t.spec
  have p := A.pair' r.inv r'.inv hc hd
  refine ⟨p.like.asked, p.like.count, fun k S xs ys h1 h2 h3 => ?_⟩
  have h := each_nth p.like.seqs h1 h2 h3
  obtain ⟨-, -, -, -, val⟩ := p.index r.inv r'.inv h2 h3
  have e : ∀ {l : List Id}, (∀ a ∈ l, a ∈ xs) → (l.map φ).map v.m.val = l.map w.m.val := fun hl => by
    rw [List.map_map]
    exact List.map_congr_left fun a ha => val a (hl a ha)
  cases S with
  | hash n eq hf =>
    refine ⟨by rw [← e fun _ h => h]; exact h.1.map _, fun k a => ?_⟩
    rw [List.filter_map, List.filter_map, show eq a ∘ v.m.val = fun z => eq a (v.m.val z) from rfl, h.2 k a, e fun a ha => List.mem_of_mem_filter ha]
    rfl
  | ord => show ys.map _ = _; rw [show ys = xs.map φ from h, e fun _ h => h]
  | seq => show ys.map _ = _; rw [show ys = xs.map φ from h, e fun _ h => h]
  | rnd => show ys.map _ = _; rw [show ys = xs.map φ from h, e fun _ h => h]

/-- The results of the next operation: the same success, and the same element. -/
theorem C76_results {o o' : Op V} {w' v' : World V} {r r' : Ret} (t : Twins g φ w v) (M : Match g φ w v ψ o o') (l : w.Legal o) (l' : v.Legal o')
    (s : w.step o = .ok (w', r)) (s' : v.step o' = .ok (v', r')) : r'.b = r.b ∧ (r.b = true → r.pos ∈ w'.m.cons → r'.pos = ψ r.pos) := by
  obtain ⟨rw', rv, A⟩ := t.spec
  have k := M.outcome A rw' rv l l' s s'
  exact ⟨k.flag, k.pos⟩

/-- If the insertion of an element is rejected, both programs report the same position: that of the same obstacle, or `end()` for an empty handle. -/
theorem C76_rejected {o o' : Op V} {w' v' : World V} {r r' : Ret} {i : Nat} {c d : Container V} (t : Twins g φ w v) (M : Match g φ w v ψ o o') (l : w.Legal o)
    (l' : v.Legal o') (s : w.step o = .ok (w', r)) (s' : v.step o' = .ok (v', r')) (ho : o.into = some i) (hc : w.cs[i]? = some c) (hd : v.cs[i]? = some d)
    (hr : r.b = false) : PosAlike φ c d r.pos r'.pos := by
  obtain ⟨rw', rv, A⟩ := t.spec
  exact rejected_alike M A rw'.inv rv.inv l l' s s' ho hc hd hr ((M.outcome A rw' rv l l' s s').flag.trans hr)

namespace Ex

/-- A pair of matching operations. -/
structure Cmd (g : Prop) where
  o : Op Val
  o' : (Id → Id) → Op Val
  t : (Id → Id) → Id → Id
  ok : ∀ φ w v, Match g φ w v (t φ) o (o' φ)

def runs2 {g : Prop} : (Id → Id) → World Val → World Val → List (Cmd g) → Option ((Id → Id) × World Val × World Val)
  | φ, w, v, [] => some (φ, w, v)
  | φ, w, v, a :: as =>
    if legalB w a.o && legalB v (a.o' φ) then
      match w.step a.o, v.step (a.o' φ) with
      | .ok (w, _), .ok (v, _) => runs2 (a.t φ) w v as
      | _, _ => none
    else none

theorem runs2_twins {g : Prop} : ∀ {as : List (Cmd g)} {φ : Id → Id} {w v : World Val} {z : (Id → Id) × World Val × World Val}, Twins g φ w v → runs2 φ w v as = some z →
    Twins g z.1 z.2.1 z.2.2
  | [], _, _, _, _, t, h => by obtain rfl := Option.some.inj h; exact t
  | a :: as, φ, w, v, z, t, h => by
    unfold runs2 at h
    split at h
    · rename_i l
      simp only [Bool.and_eq_true] at l
      split at h
      · rename_i k k'; exact runs2_twins (.step t (a.ok φ w v) (legalB_sound l.1) (legalB_sound l.2) k k') h
      · exact nomatch h
    · exact nomatch h

/-- Insertion of a value at different addresses. -/
def ins (g : Prop) (a : Val) (x x' : Id) : Cmd g :=
  ⟨.insert 0 a x {} none env, fun _ => .insert 0 a x' {} none env, fun φ => upd φ x x', fun _ _ _ => .insert _ _ _ _ _ _ _ _ _ _ fun _ _ _ _ => trivial⟩

def era (g : Prop) (x : Id) : Cmd g := ⟨.erase 0 x, fun φ => .erase 0 (φ x), fun φ => φ, fun _ _ _ => .erase ..⟩

def mfy (x : Id) (a : Val) : Cmd False :=
  ⟨.modify 0 x (fun _ => (a, false)) env, fun φ => .modify 0 (φ x) (fun _ => (a, false)) env, fun φ => φ, fun _ _ _ => .modify _ _ _ _ _ nofun⟩

/-- A container of the kind of `w2`, with its header at different addresses and different numbers of buckets. -/
def is2 (base : Id) : List (Init Val) :=
  [.ord true (fun a b => a.1 < b.1), .hash .multi (fun a b => a.2 == b.2) (fun a => a.2) ⟨fun n => n + 1, fun n => n⟩ 60 base, .seq, .rnd (fun _ => 0)]

def u1 : World Val := ⟨⟨fun _ => (0, 0), [1], []⟩, [Container.new 1 7 (is1 1000)], []⟩
def v1 : World Val := ⟨⟨fun _ => (0, 0), [2], []⟩, [Container.new 2 7 (is2 2000)], []⟩

theorem new_twins (g : Prop) : Twins g (fun x => x) u1 v1 := by
  refine .step (o := .new 1 7 (is1 1000)) (o' := .new 2 7 (is2 2000)) (r := ⟨0, true⟩) (r' := ⟨0, true⟩) (.init (fun x => x) (fun _ => (0, 0)) (fun _ => (0, 0)))
    (.new _ _ _ _ _ _ rfl) ⟨⟨by decide, by decide, by decide⟩, by simp [is1], init_ok _ (by decide) (by decide)⟩
    ⟨⟨by decide, by decide, by decide⟩, by simp [is2], ?_⟩ rfl rfl
  intro a ha
  simp only [is2, List.mem_cons, List.not_mem_nil, or_false] at ha
  rcases ha with rfl | rfl | rfl | rfl
  · exact sw_fst
  · exact ⟨eh_snd, by decide, by decide⟩
  · trivial
  · trivial

/-- Both programs insert values and erase one. -/
def hist (g : Prop) : List (Cmd g) := [ins g (3, 54) 11 21, ins g (1, 9) 12 22, ins g (2, 54) 13 14, era g 12, ins g (5, 0) 12 11, ins g (4, 1) 14 22]

example : ∃ (φ : Id → Id) (w v : World Val), Twins True φ w v ∧ (w.cs.map (·.seqs) = [[[13, 11, 14, 12], [14, 13, 11, 12], [11, 13, 12, 14], [11, 13, 12, 14]]]) ∧
    v.cs.map (·.seqs) = [[[14, 21, 22, 11], [14, 21, 11, 22], [21, 14, 11, 22], [21, 14, 11, 22]]] := by
  have h : (runs2 (fun x => x) u1 v1 (hist True)).map (fun z => (z.2.1.cs.map (·.seqs), z.2.2.cs.map (·.seqs))) =
      some ([[[13, 11, 14, 12], [14, 13, 11, 12], [11, 13, 12, 14], [11, 13, 12, 14]]], [[[14, 21, 22, 11], [14, 21, 11, 22], [21, 14, 11, 22], [21, 14, 11, 22]]]) := by decide +kernel
  obtain ⟨z, hz, k⟩ := Option.map_eq_some_iff.1 h
  exact ⟨z.1, z.2.1, z.2.2, runs2_twins (new_twins True) hz, congrArg Prod.fst k, congrArg Prod.snd k⟩

/-- A value with the key of an element: both programs report that element. -/
example : ∃ (φ : Id → Id) (w v : World Val) (r r' : Ret), Twins True φ w v ∧ Match True φ w v (upd φ 15 16) (.insert 0 (3, 7) 15 {} none env) (.insert 0 (3, 7) 16 {} none env) ∧
    w.Legal (.insert 0 (3, 7) 15 {} none env) ∧ v.Legal (.insert 0 (3, 7) 16 {} none env) ∧
    (∃ w', w.step (.insert 0 (3, 7) 15 {} none env) = .ok (w', r)) ∧ (∃ v', v.step (.insert 0 (3, 7) 16 {} none env) = .ok (v', r')) ∧
    r.b = false ∧ r.pos = 11 ∧ r'.pos = 21 := by
  have h : (runs2 (fun x => x) u1 v1 (hist True)).map (fun z => (legalB z.2.1 (.insert 0 (3, 7) 15 {} none env) && legalB z.2.2 (.insert 0 (3, 7) 16 {} none env),
      (match z.2.1.step (.insert 0 (3, 7) 15 {} none env) with | .ok (_, r) => some (r.pos, r.b) | _ => none),
      (match z.2.2.step (.insert 0 (3, 7) 16 {} none env) with | .ok (_, r) => some (r.pos, r.b) | _ => none))) =
      some (true, some (11, false), some (21, false)) := by decide +kernel
  obtain ⟨⟨φ, w, v⟩, hz, k⟩ := Option.map_eq_some_iff.1 h
  simp only [Prod.mk.injEq, Bool.and_eq_true] at k
  obtain ⟨⟨l, l'⟩, k1, k2⟩ := k
  cases s : w.step (.insert 0 (3, 7) 15 {} none env) with
  | ok a =>
    cases s' : v.step (.insert 0 (3, 7) 16 {} none env) with
    | ok b =>
      simp only [s, s', Option.some.injEq, Prod.mk.injEq] at k1 k2
      exact ⟨φ, w, v, a.2, b.2, runs2_twins (new_twins True) hz, .insert _ _ _ _ _ _ _ _ _ _ fun _ _ _ _ => trivial, legalB_sound l, legalB_sound l', ⟨a.1, s⟩, ⟨b.1, s'⟩,
        k1.2, k1.1, k2.1⟩
    | threw b => simp [s'] at k2
    | ub => simp [s'] at k2
    | hang => simp [s'] at k2
  | threw a => simp [s] at k1
  | ub => simp [s] at k1
  | hang => simp [s] at k1

/-- Insertions whose keys share a bucket in the first program, and a modification that makes them equal. -/
def hist' : List (Cmd False) := [ins False (1, 54) 11 11, ins False (2, 1) 12 12, mfy 11 (1, 1)]

end Ex

open Ex in
/-- One might expect the order of elements with the same key in a hashed index to be determined by the history of operations, modifications of keys included. -/
def GroupOrderDetermined : Prop := ∀ (φ : Id → Id) (w v : World Val), Twins False φ w v → w.Alike True φ v

open Ex in
/-- It is not: `modify` leaves the element where it is if its neighbours have its new key, which they may or may not have been before by virtue of their buckets. -/
theorem C76_group_order_full_false : ¬ GroupOrderDetermined := by
  intro H
  have h : (runs2 (fun x => x) u1 v1 hist').map (fun z => (z.2.1.cs.map (·.seqs), z.2.2.cs.map (·.seqs), z.1 11, z.1 12)) =
      some ([[[11, 12], [12, 11], [11, 12], [11, 12]]], [[[11, 12], [11, 12], [11, 12], [11, 12]]], 11, 12) := by decide +kernel
  have hv : (runs2 (fun x => x) u1 v1 hist').map (fun z => (z.2.1.m.val 11, z.2.1.m.val 12, z.2.2.m.val 11, z.2.2.m.val 12)) =
      some ((1, 1), (2, 1), (1, 1), (2, 1)) := by decide +kernel
  obtain ⟨⟨φ, w, v⟩, hz, k⟩ := Option.map_eq_some_iff.1 h
  have A := H φ w v (runs2_twins (new_twins False) hz)
  rw [hz] at hv
  simp only [Option.map_some, Option.some.injEq, Prod.mk.injEq] at hv k
  obtain ⟨k1, k2, k3, k4⟩ := k
  obtain ⟨c, hc⟩ : ∃ c, w.cs = [c] := List.length_eq_one_iff.1 (by rw [← List.length_map (f := (·.seqs)), k1]; rfl)
  obtain ⟨d, hd⟩ : ∃ d, v.cs = [d] := List.length_eq_one_iff.1 (by rw [← List.length_map (f := (·.seqs)), k2]; rfl)
  rw [hc] at k1
  rw [hd] at k2
  simp only [List.map_cons, List.map_nil, List.cons.injEq, and_true] at k1 k2
  have B := A.cs 0 c d (by rw [hc]; rfl) (by rw [hd]; rfl)
  have ask : c.asked[1]? = some (.hash .multi (fun a b => a.2 == b.2) (fun a => a.2)) := by
    have : (runs2 (fun x => x) u1 v1 hist').map (fun z => z.2.1.cs.map (fun c => c.asked[1]?)) = some [some (.hash .multi (fun a b => a.2 == b.2) (fun a => a.2))] := rfl
    rw [hz] at this
    simp only [Option.map_some, Option.some.injEq, hc, List.map_cons, List.map_nil, List.cons.injEq, and_true] at this
    exact this
  have C := each_nth B.seqs ask (by rw [k1]; rfl) (by rw [k2]; rfl)
  have D := C.2 trivial (0, 1)
  simp [hv, k3, k4] at D

end MI.Cont
