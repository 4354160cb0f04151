import Verif.Cont.AnyStep
import Verif.Props.Cont
import Verif.Ord.AnyLookup
import Verif.Hash.AnyLemmas
/-!
# C77: comparison objects, equality predicates and hash functions that break their requirements

What remains when user functions answer anything (see `Verif/Cont/Wild.lean`): order and uniqueness are lost, but no operation has undefined behaviour or runs
forever, containers stay intact, and no memory is leaked or freed twice. This holds for all kinds of indices but hashed_non_unique, for which one
wrong answer of the equality predicate is enough to damage the container: `C77_non_unique_full_false`.

The hash values used by one operation are those of some function of the value; from one operation to the next the values, and with them the hash values, may become any others.
-/
namespace MI.Cont
open MI
variable {V : Type} {w : World V} {c : Container V} {i : Nat}

theorem wild_fine {o : Op V} (r : WildReach w) (l : w.WildLegal o) {fate : Nat → UserCall V → Option Bool} (nt : o.rollsBack = true → ¬ (w.stepR o).throws fate) :
    Fine w o ((w.stepR o).result fate) := by
  obtain ⟨k1, k2⟩ := step_any' r.inv l
  rcases k1.result fate with h | ⟨h, -⟩
  · exact h
  · exact k2.result (nt h)

/-- C77: every operation returns or throws: no undefined behaviour and no endless loop, whatever user functions answer and whichever of their calls throw. Afterwards the
program can go on. For `modify` with a rollback function only if none of these calls throws: `C77_rollback_full_false`. -/
theorem C77_no_ub {o : Op V} (r : WildReach w) (l : w.WildLegal o) (fate : Nat → UserCall V → Option Bool) (nt : o.rollsBack = true → ¬ (w.stepR o).throws fate) :
    ∃ w' ret, ((w.stepR o).result fate = .ok (w', ret) ∨ (w.stepR o).result fate = .threw (w', ret)) ∧ WildReach w' := by
  obtain ⟨threw, w', ret, h, -, -⟩ := wild_fine r l nt
  have k : (w.stepR o).result fate = .ok (w', ret) ∨ (w.stepR o).result fate = .threw (w', ret) := by
    unfold Out.Of at h
    cases threw
    · exact Or.inl h
    · exact Or.inr h
  exact ⟨w', ret, k, .step fate r l k⟩

/-- C77: containers are intact: a traversal of any index ends, it meets every element exactly once, and these are the same elements for all indices; their number is what `size()` says. -/
theorem C77_intact (r : WildReach w) (hc : c ∈ w.cs) :
    c.count = c.elems.length ∧ c.elems.Nodup ∧ ∀ L ∈ c.ls, ∃ xs, L.walk c.budget c.hd = some xs ∧ xs.Perm c.elems := by
  have s := r.inv.intact c hc
  refine ⟨s.count, (List.nodup_cons.1 s.nodup).2, fun L hL => ?_⟩
  obtain ⟨xs, h1, -, h2⟩ := s.walk hL
  exact ⟨xs, h1, h2⟩

/-- C77: allocated are exactly the headers and the elements of containers and what node handles own, and constructed are exactly these elements: no element is leaked, none
belongs to two containers, none is in a container after its destruction. -/
theorem C77_memory (r : WildReach w) :
    w.m.alloc.Nodup ∧ w.m.alloc.Perm (w.cs.flatMap (fun c => c.hd :: c.elems) ++ handled w.hs) ∧ w.m.cons.Perm (w.cs.flatMap (fun c => c.elems) ++ handled w.hs) :=
  ⟨r.inv.nodup, r.inv.alloc, r.inv.cons⟩

/-- C77: what an operation does to the elements of containers and to node handles: `World.Effect`. The values of all other elements stay: `World.Untouched`. -/
theorem C77_effects {o : Op V} (r : WildReach w) (l : w.WildLegal o) (fate : Nat → UserCall V → Option Bool) (nt : o.rollsBack = true → ¬ (w.stepR o).throws fate) :
    ∃ threw w' ret, (w.stepR o).result fate = (if threw then .threw (w', ret) else .ok (w', ret)) ∧ w.Effect threw ret w' o ∧ w.Untouched w' o := by
  obtain ⟨threw, w', ret, h, e, -, u⟩ := wild_fine r l nt
  exact ⟨threw, w', ret, h, e, u⟩

/-- C77: `modify` with a rollback function when calls do throw: the element stays or is erased, as `World.Effect` says, or the behaviour is undefined (the element is erased twice:
multi_index_container.hpp:1084-1103); there is no endless loop and no other damage. -/
theorem C77_rollback {x : Id} {mod back : V → V × Bool} {e e' : Nat → Env} (r : WildReach w) (hi : w.cs[i]? = some c) (hx : x ∈ c.elems) (fate : Nat → UserCall V → Option Bool) :
    (∃ threw w' ret, (w.stepR (.modifyRb i x mod back e e')).result fate = (if threw then .threw (w', ret) else .ok (w', ret)) ∧ WildReach w' ∧
      w.Effect threw ret w' (.modifyRb i x mod back e e') ∧ w.Untouched w' (.modifyRb i x mod back e e')) ∨
    ((w.stepR (.modifyRb i x mod back e e')).result fate = .ub ∧ (w.stepR (.modifyRb i x mod back e e')).throws fate) := by
  have l : w.WildLegal (.modifyRb i x mod back e e') := ⟨c, hi, hx⟩
  obtain ⟨k1, k2⟩ := step_any' r.inv l
  have good : Fine w (.modifyRb i x mod back e e') ((w.stepR (.modifyRb i x mod back e e')).result fate) →
      ∃ threw w' ret, (w.stepR (.modifyRb i x mod back e e')).result fate = (if threw then .threw (w', ret) else .ok (w', ret)) ∧ WildReach w' ∧
      w.Effect threw ret w' (.modifyRb i x mod back e e') ∧ w.Untouched w' (.modifyRb i x mod back e e') := by
    rintro ⟨threw, w', ret, h, f, -, u⟩
    refine ⟨threw, w', ret, h, .step (r := ret) fate r l ?_, f, u⟩
    unfold Out.Of at h
    cases threw
    · exact Or.inl h
    · exact Or.inr h
  rcases k1.result fate with h | ⟨-, h⟩
  · exact Or.inl (good h)
  · by_cases t : (w.stepR (.modifyRb i x mod back e e')).throws fate
    · exact Or.inr ⟨h, t⟩
    · exact Or.inl (good (k2.result t))

/-- The claim of `C77_no_ub` without its last hypothesis. -/
def WildNoUb (V : Type) : Prop := ∀ (w : World V) (o : Op V) (fate : Nat → UserCall V → Option Bool), WildReach w → w.WildLegal o →
  ∃ w' ret, (w.stepR o).result fate = .ok (w', ret) ∨ (w.stepR o).result fate = .threw (w', ret)

section Lookups
variable {K CK : Type} {key : Id → K} {u : Bool} {lt : V → V → Bool} {h : Ord.Heap} {n : Nat} {xs : List Id}

theorem wild_rep (r : WildReach w) (hc : c ∈ w.cs) (hL : Layer.ord u lt h ∈ c.ls) (hw : (Layer.ord u lt h).walk c.budget c.hd = some xs) :
    Ord.Rep h c.hd xs ∧ xs.length + 3 ≤ c.budget := by
  have s := r.inv.intact c hc
  obtain ⟨ys, h1, h2, h3⟩ := s.walk hL
  obtain rfl := Option.some.inj (hw.symm.trans h1)
  exact ⟨Layer.held_ord.1 h2, by rw [h3.length_eq]; exact s.budget⟩

/-- C77: `find`, `lower_bound` and `upper_bound` of an ordered index return one of its elements or `end()`, whatever the comparisons say. `xs`: the elements in the order of traversal. -/
theorem C77_find (r : WildReach w) (hc : c ∈ w.cs) (hL : Layer.ord u lt h ∈ c.ls) (hw : (Layer.ord u lt h).walk c.budget c.hd = some xs) (x : CK) :
    (Ord.findA key c.budget h c.hd x).Always (fun o => ∃ y ∈ c.hd :: xs, o = some y) ∧
    (Ord.lowerBoundA key c.budget h c.hd x).Always (fun o => ∃ y ∈ c.hd :: xs, o = some y) ∧
    (Ord.upperBoundA key c.budget h c.hd x).Always (fun o => ∃ y ∈ c.hd :: xs, o = some y) := by
  obtain ⟨hr, hn⟩ := wild_rep r hc hL hw
  have : ∀ q : Id → Asks (Ord.Cmp K CK) Bool, (Ord.boundLoopA q h c.budget (h.parent c.hd) c.hd).Always (fun o => ∃ y ∈ c.hd :: xs, o = some y) := by
    intro q
    refine (Ord.boundA_any q hr hn).mono ?_
    rintro o ⟨a, b, rfl, rfl⟩
    exact ⟨_, Ord.hdOr_mem, rfl⟩
  exact ⟨Ord.findA_any key hr hn x, this _, this _⟩

/-- C77: `equal_range` and `range` return a part of the traversal: the end of the range can be reached from its beginning. `hdOr hd v`: the first of `v`, `end()` if there is none. -/
theorem C77_range (r : WildReach w) (hc : c ∈ w.cs) (hL : Layer.ord u lt h ∈ c.ls) (hw : (Layer.ord u lt h).walk c.budget c.hd = some xs) (x : CK) (hasLo hasUp : Bool) :
    (Ord.equalRangeA key c.budget h c.hd x).Always (fun o => ∃ a m b, xs = a ++ (m ++ b) ∧ o = some (hdOr c.hd (m ++ b), hdOr c.hd b)) ∧
    (Ord.rangeA key hasLo hasUp c.budget h c.hd).Always (fun o => ∃ a m b, xs = a ++ (m ++ b) ∧ o = some (hdOr c.hd (m ++ b), hdOr c.hd b)) ∧
    (Ord.countA key c.budget h c.hd x).Always (fun o => ∃ k ≤ xs.length, o = some k) := by
  obtain ⟨hr, hn⟩ := wild_rep r hc hL hw
  exact ⟨Ord.rangeA'_any _ _ _ _ hr hn, Ord.rangeA_any key hasLo hasUp hr hn, Ord.countA_any key hr hn x⟩

/-- C77: ranks are at most the size. -/
theorem C77_ranks (r : WildReach w) (hc : c ∈ w.cs) (hL : Layer.ord u lt h ∈ c.ls) (hw : (Layer.ord u lt h).walk c.budget c.hd = some xs) (x : CK) :
    (Ord.findRankA key c.budget h c.hd x).Always (fun o => ∃ k ≤ xs.length, o = some k) ∧
    (Ord.lowerBoundRankA key c.budget h c.hd x).Always (fun o => ∃ k ≤ xs.length, o = some k) ∧
    (Ord.upperBoundRankA key c.budget h c.hd x).Always (fun o => ∃ k ≤ xs.length, o = some k) ∧
    (Ord.equalRangeRankA key c.budget h c.hd x).Always (fun o => ∃ i j, o = some (i, j) ∧ i ≤ j ∧ j ≤ xs.length) := by
  obtain ⟨hr, hn⟩ := wild_rep r hc hL hw
  exact ⟨Ord.findRankA_any key hr hn x, Ord.rankA_any _ hr hn, Ord.rankA_any _ hr hn, Ord.equalRangeRankA_any key hr hn x⟩

/-- C77: the same for hashed indices, for every equality predicate (`e`, `q`: comparisons of two elements, of the key sought with an element) and every hash value `hk`. -/
theorem C77_hashed {Q : Type} {cat : Hash.Cat} {eq : V → V → Bool} {hf : V → Nat} {pol : Pol} {ml : Nat} {hh : Hash.Heap} {a : Hash.Arr} (r : WildReach w) (hc : c ∈ w.cs)
    (hL : Layer.hash cat eq hf pol ml hh a ∈ c.ls) (hw : (Layer.hash cat eq hf pol ml hh a).walk c.budget c.hd = some xs) (e : Id → Id → Asks Q Bool) (q : Id → Asks Q Bool) (hk : Nat) :
    (Hash.findA c.budget cat q hk hh a c.hd).Always (fun o => ∃ y ∈ c.hd :: xs, o = .ok y) ∧
    (Hash.equalRangeA c.budget cat e q hk hh a c.hd).Always (fun o => ∃ u m v, xs = u ++ m ++ v ∧ o = .ok ((m ++ v).headD c.hd, v.headD c.hd)) ∧
    (Hash.countA c.budget cat e q hk hh a).Always (fun o => ∃ k ≤ xs.length, o = .ok k) := by
  have s := r.inv.intact c hc
  obtain ⟨ys, h1, h2, h3⟩ := s.walk hL
  obtain rfl := Option.some.inj (hw.symm.trans h1)
  obtain ⟨rfl, sz, T, hr, oc, rfl⟩ := Layer.held_hash.1 h2
  have hn : T.nodes.length ≤ c.budget := by have := s.budget; rw [h3.length_eq]; omega
  have s0 : 0 < a.size := Nat.lt_of_lt_of_le (by decide) (Hash.sizes_pos _ sz)
  exact ⟨Hash.findA_any hr oc s0 q hk hn, Hash.equalRangeA_any hr oc s0 e q hk hn, Hash.countA_any hr oc s0 e q hk hn⟩

end Lookups

/-! ## A program with broken functions -/

namespace Ex

/-- Ordered unique, hashed unique, sequenced, random access. What the functions given here return is never used. -/
def isW (base : Id) : List (Init Val) :=
  [.ord true (fun _ _ => true), .hash .uniq (fun _ _ => false) (fun a => a.2) ⟨fun n => n + 1, fun n => n⟩ 0 base, .seq, .rnd (fun _ => 0)]

/-- A run with the answers of each operation. -/
def wilds : World Val → List ((Nat → UserCall Val → Option Bool) × Op Val) → Option (World Val)
  | w, [] => some w
  | w, (fate, o) :: os =>
    if legalB w o then
      match (w.stepR o).result fate with
      | .ok (w, _) => wilds w os
      | .threw (w, _) => wilds w os
      | _ => none
    else none

def wildB : Op Val → Bool
  | .new .. | .modifyRb .. | .place .. => false
  | _ => true

theorem wild_legal {w : World Val} {o : Op Val} (h : legalB w o = true) (k : wildB o = true) : w.WildLegal o := by
  have := legalB_sound h
  cases o with
  | new => exact nomatch k
  | modifyRb => exact nomatch k
  | place => exact nomatch k
  | _ => exact this

theorem wilds_reach : ∀ {os : List ((Nat → UserCall Val → Option Bool) × Op Val)} {w w' : World Val}, (os.all fun o => wildB o.2) = true → WildReach w → wilds w os = some w' → WildReach w'
  | [], w, w', _, r, h => by obtain rfl := Option.some.inj h; exact r
  | (fate, o) :: os, w, w', b, r, h => by
    rw [List.all_cons, Bool.and_eq_true] at b
    unfold wilds at h
    split at h
    · rename_i l
      split at h
      · rename_i k; exact wilds_reach b.2 (.step fate r (wild_legal l b.1) (Or.inl k)) h
      · rename_i k; exact wilds_reach b.2 (.step fate r (wild_legal l b.1) (Or.inr k)) h
      · exact nomatch h
    · exact nomatch h

/-- Answers alternate; call number 5 throws. -/
def flips : Nat → UserCall Val → Option Bool := fun t _ => if t = 5 then none else some (t % 2 == 0)
/-- Everything precedes everything, and nothing is equal to itself. -/
def allLess : Nat → UserCall Val → Option Bool := fun _ q => match q with | .less .. => some true | _ => some false
/-- Nothing precedes anything: all keys of the ordered index are equivalent, and nothing equals anything. -/
def noneLess : Nat → UserCall Val → Option Bool := fun _ _ => some false

/-- One container. -/
def x1 : World Val := ⟨⟨fun _ => (0, 0), [1], []⟩, [Container.new 1 7 (isW 1000)], []⟩

theorem x1_reach : WildReach x1 := by
  refine .step (w := w0) (o := .new 1 7 (isW 1000)) (r := ⟨0, true⟩) (fun _ _ => none) (.init _) ⟨⟨by decide, by decide, by decide⟩, by simp [isW], ?_⟩ (Or.inl rfl)
  intro a ha
  simp only [isW, List.mem_cons, List.not_mem_nil, or_false] at ha
  rcases ha with rfl | rfl | rfl | rfl
  · trivial
  · exact ⟨rfl, by decide, by decide⟩
  · trivial
  · trivial

/-- Equal values are inserted three times (all `<` each other), one is modified, one replaced, one extracted and inserted again. -/
def xops : List ((Nat → UserCall Val → Option Bool) × Op Val) :=
  [(allLess, .insert 0 (3, 7) 11 {} none env), (allLess, .insert 0 (3, 7) 12 {} none env), (allLess, .insert 0 (1, 5) 13 {} none env),
   (flips, .insert 0 (2, 5) 14 {} none env), (allLess, .emplace 0 (3, 7) 15 {} none env), (flips, .insert 0 (2, 5) 16 {} (some 12) env),
   (allLess, .replace 0 11 (9, 9) false env), (flips, .modify 0 12 (fun v => ((v.1 + 9, v.2), false)) env), (allLess, .modify 0 13 (fun v => (v, true)) env),
   (noneLess, .extract 0 11), (noneLess, .insertNh 0 0 none env), (allLess, .insertNh 0 0 none env)]

def x2 : World Val := (wilds x1 xops).getD w0

theorem x2_some : (wilds x1 xops).isSome = true := by decide +kernel

theorem x2_reach : WildReach x2 := by
  obtain ⟨w', h⟩ := Option.isSome_iff_exists.1 x2_some
  have : x2 = w' := by unfold x2; rw [h]; rfl
  rw [this]
  exact wilds_reach (by decide) x1_reach h

/-- Values change behind the back of the library, then more happens to the container. -/
def yops : List ((Nat → UserCall Val → Option Bool) × Op Val) :=
  [(allLess, .insert 0 (3, 7) 21 {} none env), (flips, .insert 0 (3, 7) 22 {} none env), (allLess, .insert 0 (3, 7) 23 {} (some 11) env), (allLess, .erase 0 15),
   (allLess, .rehash 0 1 200 (env 0))]

def x3 : World Val := (wilds { x2 with m := { x2.m with val := fun x => (x - 10, x % 3) } } yops).getD w0

theorem x3_some : (wilds { x2 with m := { x2.m with val := fun x => (x - 10, x % 3) } } yops).isSome = true := by decide +kernel

theorem x3_reach : WildReach x3 := by
  obtain ⟨w', h⟩ := Option.isSome_iff_exists.1 x3_some
  have : x3 = w' := by unfold x3; rw [h]; rfl
  rw [this]
  exact wilds_reach (by decide) (.poke _ x2_reach) h

/-- Two equal values in unique indices, the ordered index is not sorted; but all indices have the same elements. -/
example : x3.cs.map (·.seqs) = [[[21, 23, 11], [11, 23, 21], [11, 21, 23], [11, 21, 23]]] ∧ x3.m.alloc = [23, 21, 11, 1] ∧ [21, 23, 11].map x3.m.val = [(3, 7), (3, 7), (1, 2)] := by
  decide +kernel

example (fate : Nat → UserCall Val → Option Bool) : ∃ w' ret, ((x3.stepR (.insert 0 (3, 3) 31 {} none fun k => { env k with base := 9000 })).result fate = .ok (w', ret) ∨
    (x3.stepR (.insert 0 (3, 3) 31 {} none fun k => { env k with base := 9000 })).result fate = .threw (w', ret)) ∧ WildReach w' :=
  C77_no_ub x3_reach (wild_legal (by decide +kernel) rfl) fate fun h => nomatch h

example (fate : Nat → UserCall Val → Option Bool) : ∃ threw w' ret, (x3.stepR (.modify 0 21 (fun v => ((v.1 + 1, 0), false)) env)).result fate = (if threw then .threw (w', ret) else .ok (w', ret)) ∧
    x3.Effect threw ret w' (.modify 0 21 (fun v => ((v.1 + 1, 0), false)) env) ∧ x3.Untouched w' (.modify 0 21 (fun v => ((v.1 + 1, 0), false)) env) :=
  C77_effects x3_reach (wild_legal (by decide +kernel) rfl) fate fun h => nomatch h

example : x3.m.alloc.Nodup ∧ x3.m.alloc.Perm (x3.cs.flatMap (fun c => c.hd :: c.elems) ++ handled x3.hs) ∧ x3.m.cons.Perm (x3.cs.flatMap (fun c => c.elems) ++ handled x3.hs) :=
  C77_memory x3_reach

theorem x3_cont : ∃ c, x3.cs[0]? = some c ∧ ∃ u lt h, c.ls[0]? = some (.ord u lt h) ∧ ∃ cat eq hf pol ml hh a, c.ls[1]? = some (.hash cat eq hf pol ml hh a) := by
  have k : (match x3.cs[0]? with | some c => (match c.ls[0]?, c.ls[1]? with | some (Layer.ord _ _ _), some (Layer.hash _ _ _ _ _ _ _) => true | _, _ => false) | none => false) = true := by decide +kernel
  split at k
  · rename_i c hc
    split at k
    · rename_i h1 h2; exact ⟨c, hc, _, _, _, h1, _, _, _, _, _, _, _, h2⟩
    · exact nomatch k
  · exact nomatch k

theorem x3_mem : ∃ c, x3.cs[0]? = some c ∧ 23 ∈ c.elems := by
  have k : (match x3.cs[0]? with | some c => decide (23 ∈ c.elems) | none => false) = true := by decide +kernel
  split at k
  · rename_i c hc; exact ⟨c, hc, by simpa using k⟩
  · exact nomatch k

/-- What was returned, the elements of container 0 and the value of element 23. -/
def seen : Out (World Val × Ret) → Option (Bool × Option (List Id) × Val)
  | .ok (w, r) => some (r.b, (w.cs[0]?).map (·.elems), w.m.val 23)
  | _ => none

/-- The first `m` calls return `b`, the others the opposite. -/
def lastly (m : Nat) (b : Bool) : Nat → UserCall Val → Option Bool := fun t _ => some (if t < m then b else !b)

/-- No call throws: depending on the answers the element stays with its new value, or with that given to it by the rollback function, or it is erased. -/
example : ∃ f1 f2 f3 : Nat → UserCall Val → Option Bool,
    (∀ f ∈ [f1, f2, f3], ∃ w' ret, ((x3.stepR (.modifyRb 0 23 modA backA env env)).result f = .ok (w', ret) ∨ (x3.stepR (.modifyRb 0 23 modA backA env env)).result f = .threw (w', ret)) ∧ WildReach w') ∧
    [f1, f2, f3].map (fun f => seen ((x3.stepR (.modifyRb 0 23 modA backA env env)).result f)) = [some (true, some [21, 23, 11], (13, 7)), some (false, some [21, 23, 11], (3, 7)), some (false, some [21, 11], (3, 7))] := by
  refine ⟨lastly 2 true, lastly 7 true, lastly 0 true, fun f hf => ?_, by decide +kernel⟩
  refine C77_no_ub x3_reach (o := .modifyRb 0 23 modA backA env env) x3_mem f fun _ ⟨p, hp, e⟩ => ?_
  have no : ∀ {α : Type} (c : Runs (UserCall Val) α) (f : Nat → UserCall Val → Option Bool) (hf : ∀ t q, f t q ≠ none) (t : Nat), ∀ p ∈ (c.exec f t).2, p.2 = false := by
    intro α c f hf
    induction c with
    | done a => intro t p hp; exact nomatch hp
    | call q ok threw ih1 ih2 =>
      intro t p hp
      rw [Runs.exec] at hp
      cases h : f t q with
      | none => exact absurd h (hf t q)
      | some b =>
        rw [h] at hp
        rcases List.mem_cons.1 hp with rfl | hp
        · rfl
        · exact ih1 b _ p hp
  have := no _ f (by
    simp only [List.mem_cons, List.not_mem_nil, or_false] at hf
    rcases hf with rfl | rfl | rfl <;> exact fun _ _ h => nomatch h) 0 p hp
  rw [this] at e
  exact nomatch e

/-- The first call throws, the others return false. -/
def first : Nat → UserCall Val → Option Bool := fun t _ => if t = 0 then none else some false

theorem x3_twice : isUb ((x3.stepR (.modifyRb 0 23 modA backB env env)).result first) = true := by decide +kernel

/-- The hypotheses of the theorems about lookups are met in this state. -/
example : ∃ c ∈ x3.cs, (c.count = c.elems.length ∧ c.elems.Nodup) ∧ ∃ u lt h, .ord u lt h ∈ c.ls ∧ ∃ xs, (Layer.ord u lt h).walk c.budget c.hd = some xs ∧
    (∀ x : Val, (Ord.findA x3.m.val c.budget h c.hd x).Always (fun o => ∃ y ∈ c.hd :: xs, o = some y)) ∧
    (∀ x : Val, (Ord.equalRangeA x3.m.val c.budget h c.hd x).Always (fun o => ∃ a m b, xs = a ++ (m ++ b) ∧ o = some (hdOr c.hd (m ++ b), hdOr c.hd b))) ∧
    (∀ x : Val, (Ord.findRankA x3.m.val c.budget h c.hd x).Always (fun o => ∃ k ≤ xs.length, o = some k)) := by
  obtain ⟨c, hc, u, lt, h, hL, -⟩ := x3_cont
  have hm := List.mem_of_getElem? hc
  have hl := List.mem_of_getElem? hL
  have k := C77_intact x3_reach hm
  obtain ⟨xs, hw, -⟩ := k.2.2 _ hl
  exact ⟨c, hm, ⟨k.1, k.2.1⟩, u, lt, h, hl, xs, hw, fun x => (C77_find x3_reach hm hl hw x).1, fun x => (C77_range x3_reach hm hl hw x true true).1,
    fun x => (C77_ranks x3_reach hm hl hw x).1⟩

example : ∃ c ∈ x3.cs, ∃ cat eq hf pol ml hh a, .hash cat eq hf pol ml hh a ∈ c.ls ∧ ∃ xs, (Layer.hash cat eq hf pol ml hh a).walk c.budget c.hd = some xs ∧
    (Hash.findA c.budget cat (fun y => Asks.ask y) 77 hh a c.hd).Always (fun o => ∃ y ∈ c.hd :: xs, o = .ok y) := by
  obtain ⟨c, hc, -, -, -, -, cat, eq, hf, pol, ml, hh, a, hL⟩ := x3_cont
  have hm := List.mem_of_getElem? hc
  have hl := List.mem_of_getElem? hL
  obtain ⟨xs, hw, -⟩ := (C77_intact x3_reach hm).2.2 _ hl
  exact ⟨c, hm, cat, eq, hf, pol, ml, hh, a, hl, xs, hw, (C77_hashed x3_reach hm hl hw (fun x _ => Asks.ask x) (fun y => Asks.ask y) 77).1⟩

end Ex

open Ex in
/-- C77: if a call of a user function throws while `modify` puts the element in its new place, and then the rollback function does not restore the key (or a wrong answer makes it
look so), the element is erased twice. -/
theorem C77_rollback_full_false : ¬ WildNoUb (Nat × Nat) := by
  intro k
  obtain ⟨w', ret, h⟩ := k x3 (.modifyRb 0 23 modA backB env env) first x3_reach x3_mem
  have u := x3_twice
  rcases h with h | h <;> rw [h] at u <;> cases u

/-! ## Non-unique hashed indices -/

/-- The same claim for one operation with arbitrary answers in a state of a program that met all requirements until then, non-unique hashed indices included: the operation returns or throws,
and afterwards every index can be traversed. -/
def NonUniqueIntact (V : Type) : Prop := ∀ (w : World V) (o : Op V) (fate : Nat → UserCall V → Option Bool), Reach w → w.Legal o →
  ∃ w' ret, ((w.stepR o).result fate = .ok (w', ret) ∨ (w.stepR o).result fate = .threw (w', ret)) ∧
    ∀ c ∈ w'.cs, ∀ L ∈ c.ls, ∃ xs, L.walk c.budget c.hd = some xs

namespace Ex

/-- Three elements with equal keys, and one with another key in the same bucket, which comes first. -/
def mops : List (Op Val) :=
  [.insert 0 (1, 5) 11 {} none env, .insert 0 (2, 5) 12 {} none env, .insert 0 (3, 5) 13 {} none env, .insert 0 (4, 58) 14 {} none env]

def m4 : World Val := (runs w2 mops).getD w0

theorem m4_some : (runs w2 mops).isSome = true := by decide +kernel

theorem m4_reach : Reach m4 := by
  obtain ⟨w', h⟩ := Option.isSome_iff_exists.1 m4_some
  have : m4 = w' := by unfold m4; rw [h]; rfl
  rw [this]
  exact runs_reach w2_reach h

/-- The equality predicate says that 58 and 5 are equal, too. -/
def liar : Nat → UserCall Val → Option Bool := fun _ q => match q with | .less _ a b => some (a.1 < b.1) | _ => some true

/-- Whether all indices can be traversed. -/
def traversable : Out (World Val × Ret) → Bool
  | .ok (w, _) | .threw (w, _) => w.cs.all fun c => c.ls.all fun L => (L.walk c.budget c.hd).isSome
  | _ => false

end Ex

open Ex in
/-- C77: one wrong answer of the equality predicate of a non-unique hashed index makes the insertion of an element damage it: a traversal does not get to the end any more
(`link` takes the first element of the next group for the last one of the group of the new element: hashed_index.hpp:1354-1370, hash_index_node.hpp:413-440). -/
theorem C77_non_unique_full_false : ¬ NonUniqueIntact (Nat × Nat) := by
  intro k
  obtain ⟨w', ret, h, hw⟩ := k m4 (.insert 0 (6, 58) 15 {} none env) liar m4_reach (legalB_sound (by decide +kernel))
  have hf : traversable ((m4.stepR (.insert 0 (6, 58) 15 {} none env)).result liar) = false := by decide +kernel
  have ht : traversable ((m4.stepR (.insert 0 (6, 58) 15 {} none env)).result liar) = true := by
    rcases h with h | h <;>
    · rw [h]
      simp only [traversable, List.all_eq_true, Option.isSome_iff_exists]
      exact hw
  rw [hf] at ht
  cases ht

end MI.Cont
