import Verif.Cont.IdealStep2
import Verif.Cont.Example
/-!
C78: a program's containers behave as the ideal containers of `Verif/Cont/Ideal.lean`, in which an index is a plain list and operations are functions on lists.
-/
namespace MI.Ideal
open MI MI.Cont

variable {V : Type} {w w' : World V} {a : State V} {o : Op V} {r : Ret}

/-- Whatever a program has done, its elements, containers and handles are as the ideal says. -/
theorem C78_agrees (f : Follows w a) : Agrees w a := f.reach.2

/-- An operation that returns: so it does in the ideal, with the same boolean and, where it returns an iterator to an element, the same element. -/
theorem C78_returns (f : Follows w a) (l : w.Legal o) (cv : a.Covers o) (s : w.step o = .ok (w', r)) :
    ∃ a' b p, a.step o = some (a', b, p) ∧ r.b = b ∧ (∀ q, p = some q → r.pos = q) ∧ Follows w' a' := by
  obtain ⟨a', b, p, e, -, h1, h2⟩ := ideal_returns f.reach.2 f.reach.1 l cv s
  exact ⟨a', b, p, e, h1, h2, .returns f l cv s e⟩

/-- An operation that throws: the ideal says what is left. -/
theorem C78_throws (f : Follows w a) (l : w.Legal o) (cv : a.Covers o) (s : w.step o = .threw (w', r)) : ∃ a', a.fail o = some a' ∧ Follows w' a' := by
  obtain ⟨a', e, -⟩ := ideal_throws f.reach.2 f.reach.1 l cv s
  exact ⟨a', e, .throws f l cv s e⟩

/-- There is no third possibility. -/
theorem C78_total (f : Follows w a) (l : w.Legal o) (cv : a.Covers o) :
    ∃ w' a', Follows w' a' ∧ ((∃ r, w.step o = .ok (w', r)) ∨ ∃ r, w.step o = .threw (w', r)) := by
  obtain ⟨w', r, s | s, -⟩ := step_safe f.reach.1.inv l
  · obtain ⟨a', -, -, -, -, -, f'⟩ := C78_returns f l cv s
    exact ⟨w', a', f', Or.inl ⟨r, s⟩⟩
  · obtain ⟨a', -, f'⟩ := C78_throws f l cv s
    exact ⟨w', a', f', Or.inr ⟨r, s⟩⟩

/-- `size()` is the length of each list, and all indices have the same elements. -/
theorem C78_size (f : Follows w a) {i : Nat} {c : Container V} {b : Box V} (hc : w.cs[i]? = some c) (hb : a.boxes[i]? = some b) :
    ∀ p ∈ b, p.2.length = c.count ∧ p.2.Nodup ∧ ∀ q ∈ b, p.2.Perm q.2 := by
  obtain ⟨rc, A⟩ := f.reach
  have L := A.boxes i c b hc hb
  rintro ⟨S, xs⟩ hp
  obtain ⟨ys, kn⟩ := L.mem rc.inv hc hp
  refine ⟨by rw [(rc.inv.facts hc).2.1.count]; exact kn.perm.length_eq, (kn.perm.trans kn.perm'.symm).nodup_iff.2 kn.nd, ?_⟩
  rintro ⟨T, zs⟩ hq
  obtain ⟨ys', kn'⟩ := L.mem rc.inv hc hq
  exact kn.perm.trans kn'.perm.symm

end MI.Ideal

namespace MI.Cont.Ex
open MI MI.Cont MI.Ideal

/-- `Covers` for the operations used here. -/
def coversB (a : State Val) : Op Val → Bool
  | .insert .. | .emplace .. | .extract .. | .insertNh .. | .erase .. | .modify .. | .replace .. | .relocate .. | .rehash .. | .clear .. | .transfer .. => true
  | .copy i _ _ _ _ _ => match a.boxes[i]? with
    | some ((.ord _ _, _) :: _) => true
    | _ => false
  | .place _ _ fail _ => !fail
  | _ => false

theorem coversB_sound {a : State Val} {o : Op Val} (h : coversB a o = true) : a.Covers o := by
  cases o with
  | copy =>
    intro n eq hf xs b k
    simp only [coversB, k] at h
    exact absurd h (by simp)
  | place =>
    intro k
    subst k
    exact absurd h (by simp [coversB])
  | _ => first | exact trivial | exact absurd h (by simp [coversB])

/-- The program and its ideal, and what the calls returned. -/
def side : World Val → State Val → List (Op Val) → Option (World Val × State Val × List (Option (Bool × Option Id)))
  | w, a, [] => some (w, a, [])
  | w, a, o :: os =>
    if legalB w o && coversB a o then
      match w.step o with
      | .ok (w, _) =>
        match a.step o with
        | some (a, b, p) => (side w a os).map fun (w, a, l) => (w, a, some (b, p) :: l)
        | none => none
      | .threw (w, _) =>
        match a.fail o with
        | some a => (side w a os).map fun (w, a, l) => (w, a, none :: l)
        | none => none
      | _ => none
    else none

theorem side_follows : ∀ {os : List (Op Val)} {w w' : World Val} {a a' : State Val} {l : List (Option (Bool × Option Id))}, Follows w a → side w a os = some (w', a', l) → Follows w' a'
  | [], w, w', a, a', l, f, h => by cases h; exact f
  | o :: os, w, w', a, a', l, f, h => by
    unfold side at h
    split at h
    · rename_i k
      rw [Bool.and_eq_true] at k
      split at h
      · rename_i s
        split at h
        · rename_i s'
          obtain ⟨⟨w2, a2, l2⟩, h1, h2⟩ := Option.map_eq_some_iff.1 h
          cases h2
          exact side_follows (.returns f (legalB_sound k.1) (coversB_sound k.2) s s') h1
        · exact nomatch h
      · rename_i s
        split at h
        · rename_i s'
          obtain ⟨⟨w2, a2, l2⟩, h1, h2⟩ := Option.map_eq_some_iff.1 h
          cases h2
          exact side_follows (.throws f (legalB_sound k.1) (coversB_sound k.2) s s') h1
        · exact nomatch h
      · exact nomatch h
    · exact nomatch h

/-- Indices: ordered unique by the first component, ordered non-unique by the tens of the second, hashed unique by the second, sequenced. -/
def isI (base : Id) : List (Init Val) :=
  [.ord true (fun a b => a.1 < b.1), .ord false (fun a b => a.2 / 10 < b.2 / 10), .hash .uniq (fun a b => a.2 == b.2) (fun a => a.2) ⟨fun n => n + 1, fun n => n⟩ 0 base, .seq]

def wI : World Val := ⟨⟨fun _ => (0, 0), [1], []⟩, [Container.new 1 7 (isI 1000)], []⟩
def aI : State Val := (⟨fun _ => (0, 0), [], []⟩ : State Val).addBox ((isI 1000).map Init.spec)

theorem sw_tens : StrictWeak (fun a b : Val => decide (a.2 / 10 < b.2 / 10)) :=
  ⟨by intro x; simp, by intro x y z; simp; omega, by intro x y z; simp; omega⟩

theorem wI_follows : Follows wI aI := by
  refine .returns (o := .new 1 7 (isI 1000)) (r := ⟨0, true⟩) (b := true) (p := none) (.init (fun _ => (0, 0)) (fun _ => (0, 0))) ?_ trivial rfl rfl
  refine ⟨⟨by decide, by decide, by decide⟩, by simp [isI], ?_⟩
  intro a ha
  simp only [isI, List.mem_cons, List.not_mem_nil, or_false] at ha
  rcases ha with rfl | rfl | rfl | rfl
  · exact sw_fst
  · exact sw_tens
  · exact ⟨eh_snd, by decide, by decide⟩
  · trivial

/-- Three insertions, the last with the first element as hint; one whose keys are taken in two indices; one during which an allocation throws; a modification that moves an
element in the second index; a modification to a key that is taken; a relocation; an extraction; a copy. -/
def opsI : List (Op Val) :=
  [.insert 0 (5, 71) 11 {} none env, .insert 0 (3, 72) 12 {} none env, .insert 0 (4, 73) 13 {} (some 11) env, .insert 0 (3, 71) 14 {} none env,
   .insert 0 (9, 90) 15 { construct := true } none env, .insert 0 (1, 94) 16 {} none env, .modify 0 11 (fun v => ((v.1, 99), false)) env, .insert 0 (2, 71) 17 {} none env,
   .modify 0 16 (fun v => ((5, v.2), false)) env, .relocate 0 3 12 17, .extract 0 12, .copy 0 2 7 [21, 22, 23] (fun k => { env k with base := 6000 }) {}]

end MI.Cont.Ex

namespace MI.Ideal
open MI MI.Cont MI.Cont.Ex

/-- What the calls return, and what there is in the end: the rejected insertion returns an iterator to the element with the same key in the first index, not in the third; the
hint puts element 13 before 11, which has an equivalent key in the second index. -/
example : ∃ w a, Follows w a ∧ w.cs.map (·.seqs) =
      [[[17, 13, 11], [13, 17, 11], [13, 11, 17], [11, 17, 13]], [[21, 22, 23], [22, 21, 23], [22, 23, 21], [23, 21, 22]]] ∧
    a.boxes.map (·.map Prod.snd) = [[[17, 13, 11], [13, 17, 11], [17, 13, 11], [11, 17, 13]], [[21, 22, 23], [22, 21, 23], [21, 22, 23], [23, 21, 22]]] ∧
    a.hs = [some 12] ∧ [17, 13, 11, 21, 22, 23].map a.val = [(2, 71), (4, 73), (5, 99), (2, 71), (4, 73), (5, 99)] ∧
    ∃ r, side wI aI opsI = some (w, a, r) ∧ r = [some (true, some 11), some (true, some 12), some (true, some 13), some (false, some 12), none, some (true, some 16),
      some (true, some 11), some (true, some 17), some (false, none), some (true, some 17), some (true, some 12), some (true, none)] := by
  have h : (side wI aI opsI).map (fun z => (z.1.cs.map (·.seqs), z.2.1.boxes.map (·.map Prod.snd))) =
      some ([[[17, 13, 11], [13, 17, 11], [13, 11, 17], [11, 17, 13]], [[21, 22, 23], [22, 21, 23], [22, 23, 21], [23, 21, 22]]],
        [[[17, 13, 11], [13, 17, 11], [17, 13, 11], [11, 17, 13]], [[21, 22, 23], [22, 21, 23], [21, 22, 23], [23, 21, 22]]]) := by decide +kernel
  have h1 : (side wI aI opsI).map (fun z => (z.2.1.hs, [17, 13, 11, 21, 22, 23].map z.2.1.val)) =
      some ([some 12], [(2, 71), (4, 73), (5, 99), (2, 71), (4, 73), (5, 99)]) := by decide +kernel
  have h2 : (side wI aI opsI).map (fun z => z.2.2) =
      some [some (true, some 11), some (true, some 12), some (true, some 13), some (false, some 12), none, some (true, some 16),
          some (true, some 11), some (true, some 17), some (false, none), some (true, some 17), some (true, some 12), some (true, none)] := by decide +kernel
  obtain ⟨⟨w, a, r⟩, hz, k⟩ := Option.map_eq_some_iff.1 h
  simp only [hz, Option.map_some, Option.some.injEq, Prod.mk.injEq] at k h1 h2
  exact ⟨w, a, side_follows wI_follows hz, k.1, k.2, h1.1, h1.2, r, hz, h2⟩

/-- Three insertions, the first two with equivalent keys in the second index; loading puts the second one first. -/
def opsL : List (Op Val) :=
  [.insert 0 (5, 71) 11 {} none env, .insert 0 (3, 72) 12 {} none env, .insert 0 (4, 90) 13 {} none env, .place 0 1 false [(none, 12)]]

/-- `sort` of the sequenced index by the first component. -/
def opS : Op Val := .rearrange 0 3 (.sort (fun _ a b => some (decide (a.1 < b.1))) 50 (fun n => 100 + n) (fun _ => none))

example : ∃ w a, Follows w a ∧ w.Legal opS ∧ a.Covers opS ∧ a.boxes.map (·.map Prod.snd) = [[[12, 13, 11], [12, 11, 13], [13, 12, 11], [11, 12, 13]]] ∧
    (a.step opS).map (fun z => z.1.boxes.map (·.map Prod.snd)) = some [[[12, 13, 11], [12, 11, 13], [13, 12, 11], [12, 13, 11]]] := by
  have h : (side wI aI opsL).map (fun z => (z.2.1.boxes.map (·.map Prod.snd), (z.2.1.step opS).map (fun z => z.1.boxes.map (·.map Prod.snd)))) =
      some ([[[12, 13, 11], [12, 11, 13], [13, 12, 11], [11, 12, 13]]], some [[[12, 13, 11], [12, 11, 13], [13, 12, 11], [12, 13, 11]]]) := by decide +kernel
  have h1 : (side wI aI opsL).map (fun z => decide (∃ c, z.1.cs[0]? = some c ∧ c.hd = 1 ∧ c.seqs[3]? = some [11, 12, 13] ∧ ∃ L, c.ls[3]? = some L ∧ L.keyed = false)) =
      some true := by decide +kernel
  have h2 : (side wI aI opsL).map (fun z => [11, 12, 13].map z.2.1.val) = some [(5, 71), (3, 72), (4, 90)] := by decide +kernel
  have h3 : (side wI aI opsL).map (fun z => (z.2.1.boxes[0]?.bind (·[3]?)).map fun p => (p.2, match p.1 with | .seq => true | _ => false)) = some (some ([11, 12, 13], true)) := by
    decide +kernel
  obtain ⟨⟨w, a, r⟩, hz, k⟩ := Option.map_eq_some_iff.1 h
  simp only [hz, Option.map_some, Option.some.injEq, Prod.mk.injEq, decide_eq_true_eq] at k h1 h2 h3
  obtain ⟨c, hc, hd, hs, L, hL, kd⟩ := h1
  refine ⟨w, a, side_follows wI_follows hz, ⟨c, L, [11, 12, 13], hc, hL, kd, hs, ?_⟩, ?_, k.1, k.2⟩
  · rw [hd]
    refine ⟨by decide, fun i j (e : 100 + i = 100 + j) => by omega, fun i => ?_, fun ys e => nomatch e⟩
    simp only [List.mem_cons, List.not_mem_nil, or_false]
    idomega
  · refine ⟨fun a b => decide (a.1 < b.1), sw_fst, fun _ _ _ => rfl, fun b S xs hb hx => ?_⟩
    have e : S = .seq ∧ xs = [11, 12, 13] := by
      simp only [hb, Option.bind_some, hx, Option.map_some, Option.some.injEq, Prod.mk.injEq] at h3
      refine ⟨?_, h3.1⟩
      cases S with
      | seq => rfl
      | _ => exact nomatch h3.2
    obtain ⟨rfl, rfl⟩ := e
    simp only [List.map_cons, List.map_nil, List.cons.injEq, and_true] at h2
    obtain ⟨v1, v2, v3⟩ := h2
    intro x hx y hy
    simp only [List.mem_cons, List.not_mem_nil, or_false] at hx hy
    rcases hx with rfl | rfl | rfl <;> rcases hy with rfl | rfl | rfl <;> simp [v1, v2, v3, equivOf]

end MI.Ideal
