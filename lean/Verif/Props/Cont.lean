import Verif.Cont.EffectLemmas2
import Verif.Cont.Example
/-!
# Properties of whole containers: C01-C10, C42, C50

A program is a `World`: memory (values, allocated nodes, constructed values), containers, node handles. `Reach w`: the program
can get into the state `w` by legal operations, any of which may have thrown. Legality (`World.Legal`) is the documented
preconditions (iterators refer to elements of the container, user functions are strict weak orders, consistent hashes…) plus the
assumption that allocation returns new memory. `c.seqs` is what a user sees by traversing each index, `c.elems` what is seen
by traversing the first one, `c.asked` the index specifiers the container was declared with.

`env`/`Fault` arguments say which calls of user functions and which allocations throw, in any combination.
-/
set_option linter.unusedVariables false
namespace MI.Cont
open MI
variable {V : Type} {w w' : World V} {i : Nat} {c c' : Container V}

/-! ## C01: all indices hold the same elements -/

/-- C01: in every reachable state, the traversal of every index of every container ends and meets exactly the elements of the
container, each once, and `size()` is their number. -/
theorem C01_same_elements (r : Reach w) (hc : c ∈ w.cs) {L : Layer V} (hL : L ∈ c.ls) :
    ∃ xs, L.walk c.budget c.hd = some xs ∧ xs.Nodup ∧ (∀ z, z ∈ xs ↔ z ∈ c.elems) ∧ xs.length = c.count := by
  have s := r.sound hc
  obtain ⟨k, hk⟩ := List.mem_iff_getElem?.1 hL
  obtain ⟨xs, h1, h2, h3⟩ := fit_get s.fit hk
  exact ⟨xs, Layer.walk_spec h2 (by rw [h3.length_eq]; exact s.budget), (List.nodup_cons.1 h2.nodup).2, fun z => h3.mem_iff, by rw [s.count, h3.length_eq]⟩

/-- C01: a legal operation on a reachable state returns or throws: it does not run into undefined behaviour (use of a node that
is not there, access beyond an array, null pointer) nor loop for ever; and the state it leaves is reachable, so that all
properties of reachable states hold after it, in particular after an exception. -/
theorem C01_no_undefined_behaviour (r : Reach w) {o : Op V} (l : w.Legal o) :
    ∃ w' ret, (w.step o = .ok (w', ret) ∨ w.step o = .threw (w', ret)) ∧ Reach w' := by
  obtain ⟨w', ret, h, -⟩ := step_safe r.inv l
  exact ⟨w', ret, h, .step r l h⟩

section
open Ex
/-- Non-vacuous: a state reached by accepted, rejected and failed insertions, emplacement, extraction and a rearrangement. -/
example {L : Layer Val} (h : c0.ls[2]? = some L) : ∃ xs, L.walk c0.budget c0.hd = some xs ∧ xs.Nodup ∧ (∀ z, z ∈ xs ↔ z ∈ c0.elems) ∧ xs.length = c0.count :=
  C01_same_elements w3_reach mem0 (List.mem_of_getElem? h)
example : (c0.ls[2]?).isSome = true := by decide +kernel
example : c0.seqs = [[12, 11], [11, 12], [11, 12], [11, 12]] ∧ c0.count = 2 := by decide +kernel
example : w3.Legal (.insert 0 (7, 7) 18 {} (some 11) env) := legalB_sound (by decide +kernel)
example : w3.Legal (.modify 0 12 (fun v => (v, true)) env) := legalB_sound (by decide +kernel)
example : w3.Legal (.transfer 1 0 11 env) := legalB_sound (by decide +kernel)
end

/-! ## C02: insertion -/

/-- C02: `insert` (with or without hint), if nothing throws: the value is accepted if and only if no unique index has an element
with an equivalent key. Then the new element, to which the result refers, is in every index, and the rest is as it was. Otherwise
the result refers to an element with an equivalent key in a unique index, and the container is as it was, except that a hashed index may
have been rehashed. -/
theorem C02_insert {v : V} {x : Id} {f : Fault} {hint : Option Id} {e : Nat → Env} (r : Reach w) (l : w.Legal (.insert i v x f hint e))
    (hc : w.cs[i]? = some c) (q : ¬ Trouble f e) :
    (¬ c.Bans w.m.val [] v → ∃ w', w.step (.insert i v x f hint e) = .ok (w', ⟨x, true⟩) ∧ Gained w w' i hint x ∧ w'.m.val x = v ∧ w'.hs = w.hs) ∧
    (c.Bans w.m.val [] v → ∃ w' y, w.step (.insert i v x f hint e) = .ok (w', ⟨y, false⟩) ∧ Unchanged w w' i ∧
      y ∈ c.elems ∧ ∃ S ∈ c.asked, S.unique = true ∧ S.equiv v (w.m.val y) = true) := by
  rcases eff_insert r.inv l with ⟨w1, k1, k2, k3, -, -, k4, k5, -⟩ | ⟨w1, y, k1, k2, k3⟩ | ⟨w1, k1, k2, k3⟩
  · exact ⟨fun _ => ⟨w1, k1, k2, k3, k4⟩, fun b => absurd b (k5 c hc)⟩
  · obtain ⟨h1, S, h2, h3, h4⟩ := k3 c hc
    exact ⟨fun b => absurd ⟨S, h2, h3, y, h1, by simp, h4⟩ b, fun _ => ⟨w1, y, k1, k2, h1, S, h2, h3, h4⟩⟩
  · exact absurd k3 q

/-- C02: the same for `emplace`. -/
theorem C02_emplace {v : V} {x : Id} {f : Fault} {hint : Option Id} {e : Nat → Env} (r : Reach w) (l : w.Legal (.emplace i v x f hint e))
    (hc : w.cs[i]? = some c) (q : ¬ Trouble f e) :
    (¬ c.Bans w.m.val [] v → ∃ w', w.step (.emplace i v x f hint e) = .ok (w', ⟨x, true⟩) ∧ Gained w w' i hint x ∧ w'.m.val x = v ∧ w'.hs = w.hs) ∧
    (c.Bans w.m.val [] v → ∃ w' y, w.step (.emplace i v x f hint e) = .ok (w', ⟨y, false⟩) ∧ Unchanged w w' i ∧
      y ∈ c.elems ∧ ∃ S ∈ c.asked, S.unique = true ∧ S.equiv v (w.m.val y) = true) := by
  rcases eff_emplace r.inv l with ⟨w1, k1, k2, k3, -, -, k4, k5, -⟩ | ⟨w1, y, k1, k2, k3⟩ | ⟨w1, k1, k2, k3⟩
  · exact ⟨fun _ => ⟨w1, k1, k2, k3, k4⟩, fun b => absurd b (k5 c hc)⟩
  · obtain ⟨h1, S, h2, h3, h4⟩ := k3 c hc
    exact ⟨fun b => absurd ⟨S, h2, h3, y, h1, by simp, h4⟩ b, fun _ => ⟨w1, y, k1, k2, h1, S, h2, h3, h4⟩⟩
  · exact absurd k3 q

/-- C02: the same for the insertion of a node handle; if it is accepted the handle is empty, otherwise it keeps its node. -/
theorem C02_insert_node {x : Id} {h : Nat} {hint : Option Id} {e : Nat → Env} (r : Reach w) (l : w.Legal (.insertNh i h hint e))
    (hc : w.cs[i]? = some c) (hh : w.hs[h]? = some (some x)) (q : ∀ k, (e k).Quiet) :
    (¬ c.Bans w.m.val [] (w.m.val x) → ∃ w', w.step (.insertNh i h hint e) = .ok (w', ⟨x, true⟩) ∧ Gained w w' i hint x ∧ w'.m = w.m ∧
      w'.hs = w.hs.set h none) ∧
    (c.Bans w.m.val [] (w.m.val x) → ∃ w' y, w.step (.insertNh i h hint e) = .ok (w', ⟨y, false⟩) ∧ Unchanged w w' i ∧
      y ∈ c.elems ∧ ∃ S ∈ c.asked, S.unique = true ∧ S.equiv (w.m.val x) (w.m.val y) = true) := by
  rcases eff_insertNh r.inv l hh with ⟨w1, k1, k2, k3, k4, k5⟩ | ⟨w1, y, k1, k2, -, k3⟩ | ⟨w1, k1, k2, -, k, k3⟩
  · exact ⟨fun _ => ⟨w1, k1, k2, k3, k4⟩, fun b => absurd b (k5 c hc)⟩
  · obtain ⟨h1, S, h2, h3, h4⟩ := k3 c hc
    exact ⟨fun b => absurd ⟨S, h2, h3, y, h1, by simp, h4⟩ b, fun _ => ⟨w1, y, k1, k2, h1, S, h2, h3, h4⟩⟩
  · exact absurd (q k) k3

section
open Ex
/-- Accepted: no element has first component 7. -/
example : ∃ w', w3.step (.insert 0 (7, 7) 18 {} (some 11) env) = .ok (w', ⟨18, true⟩) ∧ Gained w3 w' 0 (some 11) 18 ∧ w'.m.val 18 = (7, 7) ∧ w'.hs = w3.hs :=
  (C02_insert w3_reach (legalB_sound (by decide +kernel)) hc0 no_trouble).1 (by rw [bans0]; decide)
/-- Rejected: element 11 has first component 3. -/
example : ∃ w' y, w3.step (.emplace 0 (3, 0) 18 {} none env) = .ok (w', ⟨y, false⟩) ∧ Unchanged w3 w' 0 :=
  let ⟨w', y, h1, h2, _⟩ := (C02_emplace w3_reach (legalB_sound (by decide +kernel)) hc0 no_trouble).2 (by rw [bans0]; decide)
  ⟨w', y, h1, h2⟩
/-- The handle owning 13, of value (2,7), is accepted. -/
example : ∃ w', w3.step (.insertNh 0 0 none env) = .ok (w', ⟨13, true⟩) ∧ w'.hs = w3.hs.set 0 none :=
  let ⟨w', h1, _, _, h2⟩ := (C02_insert_node w3_reach (legalB_sound (by decide +kernel)) hc0 (by rw [w3_seqs.2]; rfl) env_quiet).1 (by rw [w3_val.2.2, bans0]; decide)
  ⟨w', h1, h2⟩
end

/-! ## C03: uniqueness -/

/-- C03: in every reachable state, the keys of two different elements of a container are not equivalent for any unique index. -/
theorem C03_unique (r : Reach w) (hc : c ∈ w.cs) {S : Spec V} (hS : S ∈ c.asked) (u : S.unique = true) :
    ∀ a ∈ c.elems, ∀ b ∈ c.elems, a ≠ b → S.equiv (w.m.val a) (w.m.val b) = false := by
  obtain ⟨k, hk⟩ := List.mem_iff_getElem?.1 hS
  obtain ⟨L, xs, -, -, -, -, -, p, g, ok⟩ := (r.sound hc).index hk
  intro a ha b hb
  exact good_unique ok u g a (p.mem_iff.2 ha) b (p.mem_iff.2 hb)

example : Spec.equiv (Ex.w3.m.val 11) (Ex.w3.m.val 12) (Spec.ord true (fun a b : Ex.Val => a.1 < b.1)) = false :=
  C03_unique Ex.w3_reach Ex.mem0 (by rw [Ex.w3_asked Ex.hc0]; simp) rfl 11 (by rw [Ex.elems0 Ex.hc0]; simp) 12 (by rw [Ex.elems0 Ex.hc0]; simp) (by decide)

/-! ## C04: sortedness -/

/-- C04: in every reachable state, the traversal `xs` of an ordered index `k` is sorted, strictly if the index is unique. -/
theorem C04_sorted (r : Reach w) (hc : c ∈ w.cs) {k : Nat} {u : Bool} {lt : V → V → Bool} {xs : List Id} (hS : c.asked[k]? = some (.ord u lt))
    (hx : c.seqs[k]? = some xs) :
    xs.Pairwise (fun a b => lt (w.m.val b) (w.m.val a) = false) ∧ (u = true → xs.Pairwise (fun a b => lt (w.m.val a) (w.m.val b) = true)) := by
  obtain ⟨L, ys, -, -, h, -, -, p, g, ok⟩ := (r.sound hc).index hS
  obtain rfl := Option.some.inj (hx.symm.trans h)
  have sw : StrictWeak lt := ok
  cases u with
  | false => exact ⟨g, fun h => nomatch h⟩
  | true => exact ⟨List.Pairwise.imp (fun h => sw.asymm h) g, fun _ => g⟩

example : [12, 11].Pairwise (fun a b => decide ((Ex.w3.m.val a).1 < (Ex.w3.m.val b).1) = true) :=
  (C04_sorted Ex.w3_reach Ex.mem0 (k := 0) (u := true) (lt := fun a b : Ex.Val => a.1 < b.1) (by rw [Ex.w3_asked Ex.hc0]; rfl) (xs := [12, 11]) (by decide +kernel)).2 rfl

/-! ## C05: strong exception guarantee of insertions -/

/-- C05: if `insert` throws, nothing has changed (except that hashed indices may have been rehashed) and no memory has leaked. It throws only if a
user function or an allocation throws. -/
theorem C05_insert {v : V} {x : Id} {f : Fault} {hint : Option Id} {e : Nat → Env} {ret : Ret} (r : Reach w) (l : w.Legal (.insert i v x f hint e))
    (h : w.step (.insert i v x f hint e) = .threw (w', ret)) : Unchanged w w' i ∧ Trouble f e := by
  rcases eff_insert r.inv l with ⟨w1, k1, -⟩ | ⟨w1, y, k1, -⟩ | ⟨w1, k1, k2, k3⟩ <;> rw [k1] at h
  · exact nomatch h
  · exact nomatch h
  · obtain ⟨rfl, -⟩ := Prod.mk.inj (Out.threw.inj h); exact ⟨k2, k3⟩

/-- C05: the same for `emplace`. -/
theorem C05_emplace {v : V} {x : Id} {f : Fault} {hint : Option Id} {e : Nat → Env} {ret : Ret} (r : Reach w) (l : w.Legal (.emplace i v x f hint e))
    (h : w.step (.emplace i v x f hint e) = .threw (w', ret)) : Unchanged w w' i ∧ Trouble f e := by
  rcases eff_emplace r.inv l with ⟨w1, k1, -⟩ | ⟨w1, y, k1, -⟩ | ⟨w1, k1, k2, k3⟩ <;> rw [k1] at h
  · exact nomatch h
  · exact nomatch h
  · obtain ⟨rfl, -⟩ := Prod.mk.inj (Out.threw.inj h); exact ⟨k2, k3⟩

/-- C05: the same for the insertion of a node handle: the handle keeps its node (`Unchanged` includes the handles). -/
theorem C05_insert_node {x : Id} {n : Nat} {hint : Option Id} {e : Nat → Env} {ret : Ret} (r : Reach w) (l : w.Legal (.insertNh i n hint e))
    (hh : w.hs[n]? = some (some x)) (h : w.step (.insertNh i n hint e) = .threw (w', ret)) : Unchanged w w' i ∧ ∃ k, ¬ (e k).Quiet := by
  rcases eff_insertNh r.inv l hh with ⟨w1, k1, -⟩ | ⟨w1, y, k1, -⟩ | ⟨w1, k1, k2, -, k3⟩ <;> rw [k1] at h
  · exact nomatch h
  · exact nomatch h
  · obtain ⟨rfl, -⟩ := Prod.mk.inj (Out.threw.inj h); exact ⟨k2, k3⟩

/-- C05: an allocation or construction of the value that throws makes an accepted insertion throw (exceptions are not swallowed). -/
theorem C05_not_swallowed {v : V} {x : Id} {f : Fault} {hint : Option Id} {e : Nat → Env} (r : Reach w) (l : w.Legal (.insert i v x f hint e))
    (hc : w.cs[i]? = some c) (b : ¬ c.Bans w.m.val [] v) (hf : f.alloc = true ∨ f.construct = true) : ∃ w' ret, w.step (.insert i v x f hint e) = .threw (w', ret) := by
  rcases eff_insert r.inv l with ⟨w1, k1, -, -, -, -, -, -, k2, k3⟩ | ⟨w1, y, k1, -, k3⟩ | ⟨w1, k1, k2, k3⟩
  · rcases hf with hf | hf
    · rw [k2] at hf; exact nomatch hf
    · rw [k3] at hf; exact nomatch hf
  · obtain ⟨h1, S, h2, h3, h4⟩ := k3 c hc
    exact absurd ⟨S, h2, h3, y, h1, by simp, h4⟩ b
  · exact ⟨w1, _, k1⟩

section
open Ex
/-- Does an operation throw? -/
def threwB : Out (World Val × Ret) → Bool
  | .threw _ => true
  | _ => false
/-- The insertion of an acceptable value throws: construction fails; comparison in the first index fails; allocation fails in `emplace`. -/
example : w3.Legal (.insert 0 (7, 7) 18 { construct := true } none env) ∧ threwB (w3.step (.insert 0 (7, 7) 18 { construct := true } none env)) = true :=
  ⟨legalB_sound (by decide +kernel), by decide +kernel⟩
example : w3.Legal (.insert 0 (7, 7) 18 {} none fun k => { env k with point := k == 0 }) ∧
    threwB (w3.step (.insert 0 (7, 7) 18 {} none fun k => { env k with point := k == 0 })) = true := ⟨legalB_sound (by decide +kernel), by decide +kernel⟩
example : w3.Legal (.emplace 0 (7, 7) 18 { alloc := true } none env) ∧ threwB (w3.step (.emplace 0 (7, 7) 18 { alloc := true } none env)) = true :=
  ⟨legalB_sound (by decide +kernel), by decide +kernel⟩
example : w3.Legal (.insertNh 0 0 none fun k => { env k with point := k == 1 }) ∧
    threwB (w3.step (.insertNh 0 0 none fun k => { env k with point := k == 1 })) = true := ⟨legalB_sound (by decide +kernel), by decide +kernel⟩
end

/-! ## C06: replace -/

/-- C06: `replace(position,v)`: if it returns true, no other element has a key equivalent to that of `v` in a unique index, the element has
the value `v` and is in its place in every index, only it may have moved. If it returns false, some other element has, and nothing
has changed. If it throws, nothing has changed either, and a user function threw. -/
theorem C06_replace {x : Id} {v : V} {a : Bool} {e : Nat → Env} (r : Reach w) (l : w.Legal (.replace i x v a e)) (hc : w.cs[i]? = some c) :
    (∃ w', w.step (.replace i x v a e) = .ok (w', ⟨x, true⟩) ∧ ¬ c.Bans w.m.val [x] v ∧ Changed w w' i x v) ∨
    (∃ w', w.step (.replace i x v a e) = .ok (w', ⟨x, false⟩) ∧ c.Bans w.m.val [x] v ∧ Identical w w' i) ∨
    (∃ w' ret, w.step (.replace i x v a e) = .threw (w', ret) ∧ ((∃ k, ¬ (e k).Quiet) ∨ a = true) ∧ Identical w w' i) := by
  rcases eff_replace r.inv l with ⟨w1, k1, k2, k3⟩ | ⟨w1, k1, k2, k3⟩ | ⟨w1, k1, k2, k3⟩
  · exact Or.inl ⟨w1, k1, k3 c hc, k2⟩
  · exact Or.inr (Or.inl ⟨w1, k1, k3 c hc, k2⟩)
  · exact Or.inr (Or.inr ⟨w1, _, k1, k3, k2⟩)

theorem each_at {R : Spec V → List Id → List Id → Prop} : ∀ {Ss : List (Spec V)} {xss yss : List (List Id)} {k : Nat} {S : Spec V}, Each R Ss xss yss →
    Ss[k]? = some S → ∃ xs ys, xss[k]? = some xs ∧ yss[k]? = some ys ∧ R S xs ys
  | [], _, _, _, _, _, h => nomatch h
  | S :: Ss, xs :: xss, ys :: yss, 0, T, e, h => by
    obtain rfl : S = T := by simpa using h
    exact ⟨xs, ys, rfl, rfl, e.1⟩
  | S :: Ss, xs :: xss, ys :: yss, k + 1, T, e, h => by
    obtain ⟨a, b, h1, h2, h3⟩ := each_at e.2 (by simpa using h : Ss[k]? = some T)
    exact ⟨a, b, by simpa using h1, by simpa using h2, h3⟩

/-- In an index for which the key of the element is what it was, nothing moves. -/
theorem changed_keeps {x : Id} {v : V} {k : Nat} {S : Spec V} (r : Reach w) (hc : w.cs[i]? = some c) (h : Changed w w' i x v) (hS : c.asked[k]? = some S)
    (he : S.SameKey v (w.m.val x)) : ∃ c', w'.cs[i]? = some c' ∧ c'.seqs[k]? = c.seqs[k]? := by
  obtain ⟨-, -, -, hv, ho, c1, c', o, -, ea⟩ := h
  obtain rfl := Option.some.inj (hc.symm.trans o.pre)
  have hi := (List.getElem?_eq_some_iff.1 hc).1
  refine ⟨c', by rw [o.cs, List.getElem?_set_self hi], ?_⟩
  obtain ⟨xs, ys, h1, h2, u1, v1, -, -, h3⟩ := each_at ea hS
  obtain ⟨L, zs, hL, sp, h4, -, hl, -, -, ok⟩ := (r.sound (List.mem_of_getElem? hc)).index hS
  obtain rfl := Option.some.inj (h1.symm.trans h4)
  rw [h1, h2]
  congr 1
  cases S with
  | ord u lt =>
    refine h3.1 ?_
    have ok' : L.spec.Ok := by rw [sp]; exact ok
    have sw : StrictWeak lt := ok
    have := (holds_sameKey (val' := w'.m.val) ok' hl (by
      intro y
      rw [sp]
      by_cases hy : y = x
      · rw [hy, hv]; exact he
      · rw [ho y hy]; exact sw.equiv_refl _)).good ok'
    rw [sp] at this
    exact this
  | hash c eq hf =>
    refine h3 ?_
    rw [hv]
    exact he
  | seq => exact h3
  | rnd => exact h3

/-- C06: if the new key is equivalent to the old one for an index (in a sequenced or random access index: always), the element, and every other
element, keeps its position in that index. -/
theorem C06_keeps_position {x : Id} {v : V} {a : Bool} {e : Nat → Env} {k : Nat} {S : Spec V} (r : Reach w) (l : w.Legal (.replace i x v a e))
    (hc : w.cs[i]? = some c) (h : w.step (.replace i x v a e) = .ok (w', ⟨x, true⟩)) (hS : c.asked[k]? = some S)
    (he : S.SameKey v (w.m.val x)) : ∃ c', w'.cs[i]? = some c' ∧ c'.seqs[k]? = c.seqs[k]? := by
  rcases eff_replace r.inv l with ⟨w1, k1, k2, k3⟩ | ⟨w1, k1, k2, k3⟩ | ⟨w1, k1, k2, k3⟩ <;> rw [k1] at h
  · obtain ⟨rfl, -⟩ := Prod.mk.inj (Out.ok.inj h)
    exact changed_keeps r hc k2 hS he
  · exact nomatch (congrArg Ret.b (Prod.mk.inj (Out.ok.inj h)).2)
  · exact nomatch h

section
open Ex
/-- Returned flag, if the operation returns. -/
def okB : Out (World Val × Ret) → Option Bool
  | .ok (_, r) => some r.b
  | _ => none
/-- The three cases: a free key; the key of 11; an exception in the second index. -/
example : w3.Legal (.replace 0 12 (5, 5) false env) ∧ okB (w3.step (.replace 0 12 (5, 5) false env)) = some true ∧
    okB (w3.step (.replace 0 12 (3, 5) false env)) = some false ∧ threwB (w3.step (.replace 0 12 (5, 6) false fun k => { env k with place := k == 1 })) = true :=
  ⟨legalB_sound (by decide +kernel), by decide +kernel, by decide +kernel, by decide +kernel⟩
/-- A replacement by an equivalent key. -/
example : okB (w3.step (.replace 0 12 (1, 9) false env)) = some true ∧ equivOf (fun a b : Val => decide (a.1 < b.1)) (1, 9) (w3.m.val 12) = true := by
  rw [w3_val.1]; exact ⟨by decide +kernel, by decide⟩
end

/-! ## C07: modify -/

/-- C07: `modify(position,mod)`: if it returns true, the element has the value computed by `mod`, is in its place in every index and
only it may have moved; no other element has an equivalent key in a unique index. If it returns false, some other element has, and the element has
been removed from every index and deleted. If it throws, a user function threw, and the element has been removed and deleted. In all
cases the other elements are as they were and keep their order. -/
theorem C07_modify {x : Id} {mod : V → V × Bool} {e : Nat → Env} (r : Reach w) (l : w.Legal (.modify i x mod e)) (hc : w.cs[i]? = some c) :
    (∃ w', w.step (.modify i x mod e) = .ok (w', ⟨x, true⟩) ∧ ¬ c.Bans w.m.val [x] (mod (w.m.val x)).1 ∧ Changed w w' i x (mod (w.m.val x)).1) ∨
    (∃ w' p, w.step (.modify i x mod e) = .ok (w', ⟨p, false⟩) ∧ c.Bans w.m.val [x] (mod (w.m.val x)).1 ∧ Lost w w' i x ∧ Deleted w w' x) ∨
    (∃ w' ret, w.step (.modify i x mod e) = .threw (w', ret) ∧ ((∃ k, ¬ (e k).Quiet) ∨ (mod (w.m.val x)).2 = true) ∧ Lost w w' i x ∧ Deleted w w' x) := by
  rcases eff_modify r.inv l with ⟨w1, k1, k2, k3, -⟩ | ⟨w1, k1, k2, k3, k4, -⟩ | ⟨w1, r1, k1, k2, k3, k4⟩
  · exact Or.inl ⟨w1, k1, k3 c hc, k2⟩
  · exact Or.inr (Or.inl ⟨w1, _, k1, k4 c hc, k2, k3⟩)
  · exact Or.inr (Or.inr ⟨w1, _, k1, k4, k2, k3⟩)

/-- C07: if `modify` succeeds and the modified key is equivalent to the old one for an index (in a sequenced or random access index: always), the
element, and every other element, keeps its position in that index. -/
theorem C07_keeps_position {x : Id} {mod : V → V × Bool} {e : Nat → Env} {k : Nat} {S : Spec V} (r : Reach w) (l : w.Legal (.modify i x mod e))
    (hc : w.cs[i]? = some c) (h : w.step (.modify i x mod e) = .ok (w', ⟨x, true⟩)) (hS : c.asked[k]? = some S)
    (he : S.SameKey (mod (w.m.val x)).1 (w.m.val x)) : ∃ c', w'.cs[i]? = some c' ∧ c'.seqs[k]? = c.seqs[k]? := by
  rcases eff_modify r.inv l with ⟨w1, k1, k2, k3, -⟩ | ⟨w1, k1, k2, k3, k4, -⟩ | ⟨w1, r1, k1, k2, k3, k4⟩ <;> rw [k1] at h
  · obtain ⟨rfl, -⟩ := Prod.mk.inj (Out.ok.inj h)
    exact changed_keeps r hc k2 hS he
  · exact nomatch (congrArg Ret.b (Prod.mk.inj (Out.ok.inj h)).2)
  · exact nomatch h

/-- C07: if the modifying function throws, `modify` throws. -/
theorem C07_not_swallowed {x : Id} {mod : V → V × Bool} {e : Nat → Env} (r : Reach w) (l : w.Legal (.modify i x mod e)) (h : (mod (w.m.val x)).2 = true) :
    ∃ w' ret, w.step (.modify i x mod e) = .threw (w', ret) := by
  rcases eff_modify r.inv l with ⟨w1, k1, k2, k3, k4⟩ | ⟨w1, k1, k2, k3, k4, k5⟩ | ⟨w1, r1, k1, k2, k3, k4⟩
  · rw [h] at k4; exact nomatch k4
  · rw [h] at k5; exact nomatch k5
  · exact ⟨w1, r1, k1⟩

section
open Ex
/-- The three cases of `modify`. -/
example : w3.Legal (.modify 0 12 (fun v => ((v.1 + 10, v.2), false)) env) ∧ okB (w3.step (.modify 0 12 (fun v => ((v.1 + 10, v.2), false)) env)) = some true ∧
    okB (w3.step (.modify 0 12 (fun v => ((v.1 + 2, v.2), false)) env)) = some false ∧ threwB (w3.step (.modify 0 12 (fun v => (v, true)) env)) = true :=
  ⟨legalB_sound (by decide +kernel), by decide +kernel, by decide +kernel, by decide +kernel⟩
/-- A change of the first component leaves the hashed index, which looks at the second, alone. -/
example : Spec.SameKey ((fun v : Val => ((v.1 + 10, v.2), false)) (w3.m.val 12)).1 (w3.m.val 12) (.hash .multi (fun a b : Val => a.2 == b.2) (·.2)) ∧
    c0.asked[1]? = some (.hash .multi (fun a b => a.2 == b.2) (fun a => a.2)) := by
  rw [w3_asked hc0, w3_val.1]; exact ⟨by simp [Spec.SameKey], rfl⟩
end

/-! ## C08: modify with rollback -/

/-- C08, the part about exceptions, in full: if a user function throws while the element is rearranged, and the rollback function restores the
keys, then the element is still in the container. -/
def C08_rollback_on_throw : Prop :=
  ∀ (V : Type) (w : World V) (i : Nat) (c : Container V) (x : Id) (mod back : V → V × Bool) (e e' : Nat → Env) (w' : World V) (ret : Ret),
    Reach w → w.cs[i]? = some c → x ∈ c.elems → Restores c.asked mod back (w.m.val x) → (mod (w.m.val x)).2 = false →
    (back (mod (w.m.val x)).1).2 = false → (∀ k, (e' k).Quiet) → w.step (.modifyRb i x mod back e e') = .threw (w', ret) →
    ∃ c', w'.cs[i]? = some c' ∧ x ∈ c'.elems

/-- C08, the other part about exceptions: if a user function throws while the element is rearranged and the rollback function does not restore
the keys, the element is removed; in particular there is no undefined behaviour. -/
def C08_no_double_erase : Prop :=
  ∀ (V : Type) (w : World V) (i : Nat) (c : Container V) (x : Id) (mod back : V → V × Bool) (e e' : Nat → Env),
    Reach w → w.cs[i]? = some c → x ∈ c.elems → ∃ w' ret, w.step (.modifyRb i x mod back e e') = .ok (w', ret) ∨ w.step (.modifyRb i x mod back e e') = .threw (w', ret)

namespace Ex

/-- The comparison of the first index throws. -/
def envT : Nat → Env := fun k => if k = 0 then { place := true } else {}

def modA : Val → Val × Bool := fun v => ((v.1 + 10, v.2), false)
def backA : Val → Val × Bool := fun v => ((v.1 - 10, v.2), false)
/-- A rollback function that restores nothing: the element is now out of order. -/
def backB : Val → Val × Bool := fun v => (v, false)

/-- What is left of container 0 after an exception. -/
def left0 : Out (World Val × Ret) → Option (List (List Id))
  | .threw (w, _) => (w.cs[0]?).map (·.seqs)
  | _ => none

theorem w3_rb_throws : left0 (w3.step (.modifyRb 0 12 modA backA envT env)) = some [[11], [11], [11], [11]] := by decide +kernel

def isUb : Out (World Val × Ret) → Bool
  | .ub => true
  | _ => false

theorem w3_rb_ub : isUb (w3.step (.modifyRb 0 12 modA backB envT env)) = true := by decide +kernel

theorem w3_restores {c : Container Val} (h : w3.cs[0]? = some c) : Restores c.asked modA backA (w3.m.val 12) := by
  have e : (backA (modA (w3.m.val 12)).1).1 = w3.m.val 12 := by rw [w3_val.1]; decide
  intro S hS
  rw [e]
  exact sameKey_refl ((w3_reach.sound (List.mem_of_getElem? h)).ok S hS) _

end Ex

/-- C08: the code does not do that: after restoring the element it erases it (the rethrow of multi_index_container.hpp:1079 is caught by the
handler at 1081). -/
theorem C08_rollback_on_throw_false : ¬ C08_rollback_on_throw := by
  intro h
  obtain ⟨c, hc⟩ := Ex.w3_cs
  have ht := Ex.w3_rb_throws
  cases hs : Ex.w3.step (.modifyRb 0 12 Ex.modA Ex.backA Ex.envT Ex.env) with
  | ok p => rw [hs] at ht; exact nomatch ht
  | ub => rw [hs] at ht; exact nomatch ht
  | hang => rw [hs] at ht; exact nomatch ht
  | threw p =>
    obtain ⟨w', ret⟩ := p
    rw [hs] at ht
    obtain ⟨c', k1, k2⟩ := h _ _ _ _ _ _ _ _ _ _ _ Ex.w3_reach hc (by rw [Ex.elems0 hc]; simp) (Ex.w3_restores hc) (by rw [Ex.w3_val.1]; rfl)
      (by rw [Ex.w3_val.1]; rfl) (fun k => by simp [Ex.env, Env.Quiet]) hs
    simp only [Ex.left0, k1] at ht
    have : c'.elems = [11] := by unfold Container.elems; rw [show c'.seqs = _ from Option.some.inj ht]; rfl
    rw [this] at k2
    exact absurd k2 (by decide)

/-- C08: if the keys are not restored, the element is erased twice. -/
theorem C08_no_double_erase_false : ¬ C08_no_double_erase := by
  intro h
  obtain ⟨c, hc⟩ := Ex.w3_cs
  obtain ⟨w', ret, k⟩ := h _ _ _ _ 12 Ex.modA Ex.backB Ex.envT Ex.env Ex.w3_reach hc (by rw [Ex.elems0 hc]; simp)
  have ht := Ex.w3_rb_ub
  rcases k with k | k <;> rw [k] at ht <;> exact nomatch ht

/-- C08, everything that can happen: `modify(position,mod,back)` for all functions, all reachable states and all throw points. If it returns true, the
element has its new value and is in its place in every index. If it returns false, some other element has an equivalent key in a unique index,
and: either the element has the value computed by `back` and every index is as it was, or `back` did not restore the keys and the element
has been removed and deleted. If it throws, a user function threw, and the element has been removed and deleted, whether or not `back` restores the
keys. Else a user function threw while the element was rearranged, `back` did not restore the keys, and the behaviour is undefined. -/
theorem C08_outcomes {x : Id} {mod back : V → V × Bool} {e e' : Nat → Env} (r : Reach w) (hc : w.cs[i]? = some c) (hx : x ∈ c.elems) :
    (∃ w', w.step (.modifyRb i x mod back e e') = .ok (w', ⟨x, true⟩) ∧ ¬ c.Bans w.m.val [x] (mod (w.m.val x)).1 ∧ Changed w w' i x (mod (w.m.val x)).1) ∨
    (∃ w', w.step (.modifyRb i x mod back e e') = .ok (w', ⟨x, false⟩) ∧ c.Bans w.m.val [x] (mod (w.m.val x)).1 ∧
      w'.m = w.m.assign x (back (mod (w.m.val x)).1).1 ∧ w'.hs = w.hs ∧ ∃ c', OnlyAt w w' i c c' ∧ c'.count = c.count ∧ c'.seqs = c.seqs) ∨
    (∃ w' p, w.step (.modifyRb i x mod back e e') = .ok (w', ⟨p, false⟩) ∧ c.Bans w.m.val [x] (mod (w.m.val x)).1 ∧
      ¬ Restores c.asked mod back (w.m.val x) ∧ Lost w w' i x ∧ Deleted w w' x) ∨
    (∃ w' ret, w.step (.modifyRb i x mod back e e') = .threw (w', ret) ∧
      ((∃ k, ¬ (e k).Quiet) ∨ (∃ k, ¬ (e' k).Quiet) ∨ (mod (w.m.val x)).2 = true ∨ (back (mod (w.m.val x)).1).2 = true) ∧ Lost w w' i x ∧ Deleted w w' x) ∨
    (w.step (.modifyRb i x mod back e e') = .ub ∧ (∃ k, ¬ (e k).Quiet) ∧ ¬ Restores c.asked mod back (w.m.val x)) := by
  rcases eff_modifyRb_all (mod := mod) (back := back) (e := e) (e' := e') r.inv hc hx with
    ⟨w1, k1, k2, k3, -⟩ | ⟨w1, k1, k2, k3, ⟨c1, c', o, q1, q2⟩, k4, -⟩ | ⟨w1, k1, k2, k3, k4, -⟩ | ⟨w1, r1, k1, k2, k3, k4⟩ | ⟨k1, k2, k3, -⟩
  · exact Or.inl ⟨w1, k1, k3 c hc, k2⟩
  · obtain rfl := Option.some.inj (hc.symm.trans o.pre)
    exact Or.inr (Or.inl ⟨w1, k1, k4 c hc, k2, k3, c', o, q1, q2⟩)
  · exact Or.inr (Or.inr (Or.inl ⟨w1, _, k1, (k4 c hc).1, (k4 c hc).2, k2, k3⟩))
  · exact Or.inr (Or.inr (Or.inr (Or.inl ⟨w1, r1, k1, k4, k2, k3⟩)))
  · exact Or.inr (Or.inr (Or.inr (Or.inr ⟨k1, k2, k3⟩)))

/-- C08: `modify(position,mod,back)`, provided that `back` restores the keys or that no user function throws while the element is
rearranged. If it returns true, the element has its new value and is in its place in every index. If it returns false, some other
element has an equivalent key in a unique index, and: either the element has the value computed by `back` and every index is as it was, or `back` did
not restore the keys and the element has been removed and deleted. If it throws, a user function threw, and the element has been removed
and deleted. Missing, because false: that the element is kept in the last case when `back` restores the keys, and the case in which a user
function throws and `back` does not restore the keys. -/
theorem C08_modify_rollback_partial {x : Id} {mod back : V → V × Bool} {e e' : Nat → Env} (r : Reach w) (hc : w.cs[i]? = some c) (hx : x ∈ c.elems)
    (hyp : Restores c.asked mod back (w.m.val x) ∨ ∀ k, (e k).Quiet) :
    (∃ w', w.step (.modifyRb i x mod back e e') = .ok (w', ⟨x, true⟩) ∧ ¬ c.Bans w.m.val [x] (mod (w.m.val x)).1 ∧ Changed w w' i x (mod (w.m.val x)).1) ∨
    (∃ w', w.step (.modifyRb i x mod back e e') = .ok (w', ⟨x, false⟩) ∧ c.Bans w.m.val [x] (mod (w.m.val x)).1 ∧
      w'.m = w.m.assign x (back (mod (w.m.val x)).1).1 ∧ w'.hs = w.hs ∧ ∃ c', OnlyAt w w' i c c' ∧ c'.count = c.count ∧ c'.seqs = c.seqs) ∨
    (∃ w' p, w.step (.modifyRb i x mod back e e') = .ok (w', ⟨p, false⟩) ∧ c.Bans w.m.val [x] (mod (w.m.val x)).1 ∧
      ¬ Restores c.asked mod back (w.m.val x) ∧ Lost w w' i x ∧ Deleted w w' x) ∨
    (∃ w' ret, w.step (.modifyRb i x mod back e e') = .threw (w', ret) ∧
      ((∃ k, ¬ (e k).Quiet) ∨ (∃ k, ¬ (e' k).Quiet) ∨ (mod (w.m.val x)).2 = true ∨ (back (mod (w.m.val x)).1).2 = true) ∧ Lost w w' i x ∧ Deleted w w' x) := by
  have l : w.Legal (.modifyRb i x mod back e e') := ⟨c, hc, hx, hyp⟩
  rcases eff_modifyRb r.inv l with ⟨w1, k1, k2, k3, -⟩ | ⟨w1, k1, k2, k3, ⟨c1, c', o, q1, q2⟩, k4, -⟩ | ⟨w1, k1, k2, k3, k4, -⟩ | ⟨w1, r1, k1, k2, k3, k4⟩
  · exact Or.inl ⟨w1, k1, k3 c hc, k2⟩
  · obtain rfl := Option.some.inj (hc.symm.trans o.pre)
    exact Or.inr (Or.inl ⟨w1, k1, k4 c hc, k2, k3, c', o, q1, q2⟩)
  · exact Or.inr (Or.inr (Or.inl ⟨w1, _, k1, (k4 c hc).1, (k4 c hc).2, k2, k3⟩))
  · exact Or.inr (Or.inr (Or.inr ⟨w1, r1, k1, k4, k2, k3⟩))

section
open Ex
/-- Kept; banned and restored; banned and not restored. -/
example : okB (w3.step (.modifyRb 0 12 modA backA env env)) = some true ∧
    okB (w3.step (.modifyRb 0 12 (fun v => ((v.1 + 2, v.2), false)) (fun v => ((v.1 - 2, v.2), false)) env env)) = some false ∧
    okB (w3.step (.modifyRb 0 12 (fun v => ((v.1 + 2, v.2), false)) backB env env)) = some false := ⟨by decide +kernel, by decide +kernel, by decide +kernel⟩
example : Restores c0.asked modA backA (w3.m.val 12) := w3_restores hc0
end

/-! ## C09: erasure and extraction -/

/-- C09: `erase(position)` removes that element from every index, and nothing else, and deletes its node. -/
theorem C09_erase {x : Id} (r : Reach w) (hc : w.cs[i]? = some c) (hx : x ∈ c.elems) :
    ∃ w' ret, w.step (.erase i x) = .ok (w', ret) ∧ Lost w w' i x ∧ Deleted w w' x := by
  obtain ⟨w1, k1, k2, k3, -⟩ := eff_erase r.inv (show w.Legal (.erase i x) from ⟨c, hc, hx⟩)
  exact ⟨w1, _, k1, k2, k3⟩

/-- C09: `extract(position)` removes that element from every index, and nothing else; the node handle it returns owns the node. -/
theorem C09_extract {x : Id} (r : Reach w) (hc : w.cs[i]? = some c) (hx : x ∈ c.elems) :
    ∃ w' ret, w.step (.extract i x) = .ok (w', ret) ∧ Lost w w' i x ∧ w'.m = w.m ∧ w'.hs = w.hs ++ [some x] := by
  obtain ⟨w1, k1, k2, k3, k4⟩ := eff_extract r.inv (show w.Legal (.extract i x) from ⟨c, hc, hx⟩)
  exact ⟨w1, _, k1, k2, k3, k4⟩

example : ∃ w' ret, Ex.w3.step (.erase 0 12) = .ok (w', ret) ∧ Lost Ex.w3 w' 0 12 ∧ Deleted Ex.w3 w' 12 :=
  C09_erase Ex.w3_reach Ex.hc0 (by rw [Ex.elems0 Ex.hc0]; simp)

/-! ## C10: ownership of nodes -/

/-- The nodes a program can name: headers and elements of its containers, and nodes in its node handles. -/
def World.owned (w : World V) : List Id := w.cs.flatMap (fun c => c.hd :: c.elems) ++ w.hs.filterMap id

/-- C10: in every reachable state each allocated node has exactly one owner: it is the header of one container, or an element of one
container, or in one handle; and nothing else is owned. The constructed values are those of elements and of nodes in handles. -/
theorem C10_one_owner (r : Reach w) :
    w.owned.Nodup ∧ (∀ z, z ∈ w.m.alloc ↔ z ∈ w.owned) ∧ w.m.alloc.length = w.owned.length ∧
    w.m.cons.Perm (w.cs.flatMap (·.elems) ++ w.hs.filterMap id) := by
  have I := r.inv
  have p : w.m.alloc.Perm w.owned := I.alloc
  exact ⟨p.nodup_iff.1 I.nodup, fun z => p.mem_iff, p.length_eq, I.cons⟩

/-- C10: when all containers have been destroyed and no handle owns a node, no node is allocated and no value constructed. -/
theorem C10_no_leak (r : Reach w) (h1 : w.cs = []) (h2 : ∀ h ∈ w.hs, h = none) : w.m.alloc = [] ∧ w.m.cons = [] := by
  have I := r.inv
  have e : handled w.hs = [] := by
    unfold handled
    rw [List.filterMap_eq_nil_iff]
    intro a ha
    rw [h2 a ha]; rfl
  have ha := I.alloc
  have hc := I.cons
  rw [h1, e] at ha hc
  exact ⟨ha.eq_nil, hc.eq_nil⟩

/-- C10: the destructor of a node handle that owns a node deletes exactly that node. -/
theorem C10_drop_handle {x : Id} {h : Nat} (r : Reach w) (hh : w.hs[h]? = some (some x)) :
    ∃ w' ret, w.step (.dropHandle h) = .ok (w', ret) ∧ w'.m.alloc = w.m.alloc.erase x ∧ w'.m.cons = w.m.cons.erase x ∧ w'.cs = w.cs ∧ w'.hs = w.hs.set h none := by
  have I := r.inv
  have xh : x ∈ handled w.hs := List.mem_filterMap.2 ⟨some x, List.mem_of_getElem? hh, rfl⟩
  have := Mem.deleteNode_mem (I.handle_alloc xh) (I.handle_cons xh)
  exact ⟨⟨{ w.m with alloc := w.m.alloc.erase x, cons := w.m.cons.erase x }, w.cs, w.hs.set h none⟩, ⟨0, true⟩,
    by simp only [World.step, hh, Mem.deleteOpt, this], rfl, rfl, rfl, rfl⟩

section
open Ex
example : w3.owned = [1, 12, 11, 2, 16, 17, 13] ∧ w3.m.alloc = [17, 16, 13, 12, 11, 2, 1] := by decide +kernel
/-- After destroying everything nothing is left, and such a state is reachable. -/
example : ∃ w : World Val, Reach w ∧ w.cs = [] ∧ (∀ h ∈ w.hs, h = none) ∧ w.hs ≠ [] := by
  have h : (runs w3 [.destroy 1, .dropHandle 0, .destroy 0]).isSome = true ∧
      ((runs w3 [.destroy 1, .dropHandle 0, .destroy 0]).map fun w => (w.cs.length, w.hs)) = some (0, [none]) := by decide +kernel
  obtain ⟨w', h1⟩ := Option.isSome_iff_exists.1 h.1
  have h2 := h.2
  rw [h1] at h2
  have h3 := Prod.mk.inj (Option.some.inj h2)
  exact ⟨w', runs_reach w3_reach h1, List.length_eq_zero_iff.1 h3.1, by rw [h3.2]; simp, by rw [h3.2]; simp⟩
end

/-! ## C50: clearing and destruction -/

/-- C50: `clear()` destroys and deallocates exactly the elements of the container (each once: a second time would be undefined
behaviour), and all its indices are then empty. -/
theorem C50_clear (r : Reach w) (hc : w.cs[i]? = some c) :
    ∃ w' c' ret, w.step (.clear i) = .ok (w', ret) ∧ OnlyAt w w' i c c' ∧ Emptied w w' c.elems c.elems ∧ c'.count = 0 ∧ ∀ xs ∈ c'.seqs, xs = [] := by
  obtain ⟨w1, c1, c', k1, o, k2, k3, k4⟩ := eff_clear r.inv (show w.Legal (.clear i) from (List.getElem?_eq_some_iff.1 hc).1)
  obtain rfl := Option.some.inj (hc.symm.trans o.pre)
  exact ⟨w1, c', _, k1, o, k2, k3, k4⟩

/-- C50: the destructor of a container destroys and deallocates exactly its elements and deallocates its header; the other
containers, the handles and their elements are as they were. -/
theorem C50_destroy (r : Reach w) (hc : w.cs[i]? = some c) :
    ∃ w' ret, w.step (.destroy i) = .ok (w', ret) ∧ w'.cs = w.cs.eraseIdx i ∧ Emptied w w' c.elems (c.hd :: c.elems) := by
  obtain ⟨w1, c1, k1, k2, k3, k4⟩ := eff_destroy r.inv (show w.Legal (.destroy i) from (List.getElem?_eq_some_iff.1 hc).1)
  obtain rfl := Option.some.inj (hc.symm.trans k2)
  exact ⟨w1, _, k1, k3, k4⟩

example : ∃ w' ret, Ex.w3.step (.destroy 0) = .ok (w', ret) ∧ w'.cs = Ex.w3.cs.eraseIdx 0 ∧ Emptied Ex.w3 w' [12, 11] [Ex.c0.hd, 12, 11] := by
  have := C50_destroy Ex.w3_reach Ex.hc0
  rw [Ex.elems0 Ex.hc0] at this
  exact this

/-! ## C42: elements do not move -/

/-- C42: whatever a legal operation does, an element it is not directed at (`World.targets`) stays at the same address with the same
value in the same container, and a node it is not directed at stays in a handle: iterators and references to it remain valid. -/
theorem C42_stable {o : Op V} {ret : Ret} (r : Reach w) (l : w.Legal o) (h : w.step o = .ok (w', ret) ∨ w.step o = .threw (w', ret)) {z : Id}
    (hz : z ∉ w.targets o) : Survives w w' z := step_survives r.inv l h hz

/-- C42: what an iterator of one index refers to is an element of all the other indices (`project`). -/
theorem C42_project (r : Reach w) (hc : c ∈ w.cs) {xs ys : List Id} (h1 : xs ∈ c.seqs) (h2 : ys ∈ c.seqs) {z : Id} (hz : z ∈ xs) : z ∈ ys :=
  let s := r.sound hc
  (s.fit.perm ys h2).mem_iff.2 ((s.fit.perm xs h1).mem_iff.1 hz)

/-- Element 12 is not touched by erasing 11, nor by an insertion that fails, nor by clearing the other container. -/
example : 12 ∉ Ex.w3.targets (.erase 0 11) ∧ 12 ∉ Ex.w3.targets (.insert 0 (7, 7) 18 { construct := true } none Ex.env) ∧ 12 ∉ Ex.w3.targets (.clear 1) ∧
    Ex.w3.Legal (.clear 1) := ⟨by decide +kernel, by decide +kernel, by decide +kernel, legalB_sound (by decide +kernel)⟩

end MI.Cont
