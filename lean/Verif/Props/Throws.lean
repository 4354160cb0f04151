import Verif.Cont.CallsLemmas7
import Verif.Props.Cont
/-!
# C72: user functions that throw, call by call

`w.stepR op` (`Verif/Cont/Calls.lean`) is operation `op` in state `w` with every call of a comparison object, equality predicate, hash function or key extractor
explicit. A `fate` says for each call, by its number and its arguments, whether it throws and what it returns otherwise (`Verif/Spec/Runs.lean`). So the theorems of
this file hold whichever calls throw: the same arguments may be compared successfully now and throw the next time. `Honest`: calls that do not throw
return what the user function is, `w.answers`; the bounds on the numbers of calls need not even that.

Memory that is not available is as before a part of `op`.
-/
namespace MI.Cont
open MI Runs
variable {V : Type} {w : World V} {c : Container V} {i : Nat} {op : Op V} {fate : Nat → UserCall V → Option Bool}

/-- Call number `t` throws, the others answer. -/
def failAt (w : World V) (i t : Nat) : Nat → UserCall V → Option Bool := fun s q => if s = t then none else some (w.answers i q)

theorem failAt_honest (w : World V) (i t : Nat) : Honest (w.answers i) (failAt w i t) := by
  intro s q b h
  unfold failAt at h
  split at h
  · exact nomatch h
  · exact (Option.some.inj h).symm

/-- Whether call number `t` of an operation exists and makes it throw. -/
def failsAt (w : World V) (op : Op V) (t : Nat) : Bool :=
  ((w.stepR op).exec (failAt w op.target t) 0).2.any (·.2) && (match (w.stepR op).result (failAt w op.target t) with | .threw _ => true | _ => false)

theorem failsAt_throws {w : World V} {op : Op V} {t : Nat} (h : failsAt w op t = true) : (w.stepR op).throws (failAt w op.target t) := by
  unfold failsAt at h
  rw [Bool.and_eq_true, List.any_eq_true] at h
  exact h.1

/-- C72: if no call throws, the operation does what all other properties say it does in an environment where no user function throws. -/
theorem C72_no_exception (r : Reach w) (l : w.Legal op) (hon : Honest (w.answers op.target) fate) (h : ¬ (w.stepR op).throws fate) :
    (w.stepR op).result fate = w.step (op.within (calmE op.env) (calmE op.env')) := by
  rcases stepR_agrees r l hon 0 with ⟨-, k⟩ | ⟨k, -⟩
  · exact k
  · exact absurd k h

/-- C72: if a call throws, the operation does what all other properties say it does in some environment with the same memory, and does not return. -/
theorem C72_exception (r : Reach w) (l : w.Legal op) (hon : Honest (w.answers op.target) fate) (h : (w.stepR op).throws fate) :
    ∃ e e', (∀ k, (op.env k).Like (e k)) ∧ (∀ k, (op.env' k).Like (e' k)) ∧ (w.stepR op).result fate = w.step (op.within e e') ∧
      ∀ ret, (w.stepR op).result fate ≠ .ok ret := by
  rcases stepR_agrees r l hon 0 with ⟨k, -⟩ | ⟨-, k⟩
  · exact absurd h k
  · exact k

/-- C72: no exception is swallowed, whatever the operation, the call and the index: it leaves the operation, and the program is in a valid state after it. (`modify`
with a rollback function that does not restore the keys: see `C08_full_false`.) -/
theorem C72_not_swallowed (r : Reach w) (l : w.Legal op) (hon : Honest (w.answers op.target) fate) (h : (w.stepR op).throws fate)
    (hb : ∀ i x mod back f f', op = .modifyRb i x mod back f f' → ∀ c, w.cs[i]? = some c → Restores c.asked mod back (w.m.val x)) :
    ∃ w' ret, (w.stepR op).result fate = .threw (w', ret) ∧ Reach w' := by
  obtain ⟨e, e', k1, k2, k3, k4⟩ := C72_exception r l hon h
  have l' : w.Legal (op.within e e') := legal_within l k1 fun i x mod back f f' ho => Or.inl (hb i x mod back f f' ho)
  obtain ⟨w', ret, j1 | j1, j2⟩ := C01_no_undefined_behaviour r l'
  · exact absurd (k3.trans j1) (k4 _)
  · exact ⟨w', ret, k3.trans j1, j2⟩

/-- C72: `insert`, with or without a hint: if a call throws, nothing has changed. -/
theorem C72_insert {v : V} {x : Id} {f : Fault} {hint : Option Id} {e : Nat → Env} (r : Reach w) (l : w.Legal (.insert i v x f hint e)) (hon : Honest (w.answers i) fate)
    (h : (w.stepR (.insert i v x f hint e)).throws fate) : ∃ w' ret, (w.stepR (.insert i v x f hint e)).result fate = .threw (w', ret) ∧ Unchanged w w' i := by
  obtain ⟨e1, e2, k1, k2, k3, k4⟩ := C72_exception r l hon h
  have l' := legal_within (e' := e2) l k1 fun _ _ _ _ _ _ ho => nomatch ho
  rcases eff_insert r.inv l' with ⟨w', j, -⟩ | ⟨w', y, j, -⟩ | ⟨w', j, j2, -⟩
  · exact absurd (k3.trans j) (k4 _)
  · exact absurd (k3.trans j) (k4 _)
  · exact ⟨w', _, k3.trans j, j2⟩

section
open Ex
/-- An insertion into container 0 makes 5 calls: the key, two comparisons, the hash value, one test for equality; each may throw. -/
example : w3.Legal (.insert 0 (7, 7) 14 {} none env) ∧ (∀ t < 5, failsAt w3 (.insert 0 (7, 7) 14 {} none env) t = true) ∧
    ¬ (w3.stepR (.insert 0 (7, 7) 14 {} none env)).throws (failAt w3 0 5) :=
  ⟨legalB_sound (by decide +kernel), by decide +kernel, by
    rintro ⟨p, h1, h2⟩
    have : ((w3.stepR (.insert 0 (7, 7) 14 {} none env)).exec (failAt w3 0 5) 0).2.any (·.2) = false := by decide +kernel
    rw [List.any_eq_false] at this
    exact this p h1 h2⟩
end

/-- C72: `emplace` and `emplace_hint`. -/
theorem C72_emplace {v : V} {x : Id} {f : Fault} {hint : Option Id} {e : Nat → Env} (r : Reach w) (l : w.Legal (.emplace i v x f hint e)) (hon : Honest (w.answers i) fate)
    (h : (w.stepR (.emplace i v x f hint e)).throws fate) : ∃ w' ret, (w.stepR (.emplace i v x f hint e)).result fate = .threw (w', ret) ∧ Unchanged w w' i := by
  obtain ⟨e1, e2, k1, k2, k3, k4⟩ := C72_exception r l hon h
  have l' := legal_within (e' := e2) l k1 fun _ _ _ _ _ _ ho => nomatch ho
  rcases eff_emplace r.inv l' with ⟨w', j, -⟩ | ⟨w', y, j, -⟩ | ⟨w', j, j2, -⟩
  · exact absurd (k3.trans j) (k4 _)
  · exact absurd (k3.trans j) (k4 _)
  · exact ⟨w', _, k3.trans j, j2⟩

section
open Ex
example : w3.Legal (.emplace 0 (7, 7) 14 {} none env) ∧ ∀ t < 5, failsAt w3 (.emplace 0 (7, 7) 14 {} none env) t = true :=
  ⟨legalB_sound (by decide +kernel), by decide +kernel⟩
end

/-- C72: insertion of a node handle: the handle still owns the element, in particular (`Unchanged` says that handles have not changed). -/
theorem C72_insert_node {x : Id} {g : Nat} {hint : Option Id} {e : Nat → Env} (r : Reach w) (l : w.Legal (.insertNh i g hint e)) (hg : w.hs[g]? = some (some x))
    (hon : Honest (w.answers i) fate) (h : (w.stepR (.insertNh i g hint e)).throws fate) :
    ∃ w' ret, (w.stepR (.insertNh i g hint e)).result fate = .threw (w', ret) ∧ Unchanged w w' i ∧ w'.m = w.m := by
  obtain ⟨e1, e2, k1, k2, k3, k4⟩ := C72_exception r l hon h
  have l' := legal_within (e' := e2) l k1 fun _ _ _ _ _ _ ho => nomatch ho
  rcases eff_insertNh r.inv l' hg with ⟨w', j, -⟩ | ⟨w', y, j, -⟩ | ⟨w', j, j2, j3, -⟩
  · exact absurd (k3.trans j) (k4 _)
  · exact absurd (k3.trans j) (k4 _)
  · exact ⟨w', _, k3.trans j, j2, j3⟩

section
open Ex
/-- Handle 0 owns element 13; its insertion makes 6 calls. -/
example : w3.Legal (.insertNh 0 0 none env) ∧ w3.hs[0]? = some (some 13) ∧ ∀ t < 6, failsAt w3 (.insertNh 0 0 none env) t = true :=
  ⟨legalB_sound (by decide +kernel), by rw [w3_seqs.2]; rfl, by decide +kernel⟩
end

/-- C72: one step of `merge` or `splice` from container `j`: the element is still there. -/
theorem C72_transfer {x : Id} {j : Nat} {e : Nat → Env} (r : Reach w) (l : w.Legal (.transfer i j x e)) (hon : Honest (w.answers i) fate)
    (h : (w.stepR (.transfer i j x e)).throws fate) : ∃ w' ret, (w.stepR (.transfer i j x e)).result fate = .threw (w', ret) ∧ Unchanged w w' i ∧ w'.m = w.m := by
  obtain ⟨e1, e2, k1, k2, k3, k4⟩ := C72_exception r l hon h
  have l' := legal_within (e' := e2) l k1 fun _ _ _ _ _ _ ho => nomatch ho
  rcases eff_transfer r.inv l' with ⟨w', j, -⟩ | ⟨w', y, j, -⟩ | ⟨w', j, j2, j3, -⟩
  · exact absurd (k3.trans j) (k4 _)
  · exact absurd (k3.trans j) (k4 _)
  · exact ⟨w', _, k3.trans j, j2, j3⟩

section
open Ex
example : w3.Legal (.transfer 0 1 17 env) ∧ ∀ t < 5, failsAt w3 (.transfer 0 1 17 env) t = true := ⟨legalB_sound (by decide +kernel), by decide +kernel⟩
end

/-- C72: `replace`: if a call throws, everything is as it was, the order of hashed indices included. -/
theorem C72_replace {v : V} {x : Id} {a : Bool} {e : Nat → Env} (r : Reach w) (l : w.Legal (.replace i x v a e)) (hon : Honest (w.answers i) fate)
    (h : (w.stepR (.replace i x v a e)).throws fate) : ∃ w' ret, (w.stepR (.replace i x v a e)).result fate = .threw (w', ret) ∧ Identical w w' i := by
  obtain ⟨e1, e2, k1, k2, k3, k4⟩ := C72_exception r l hon h
  have l' := legal_within (e' := e2) l k1 fun _ _ _ _ _ _ ho => nomatch ho
  rcases eff_replace r.inv l' with ⟨w', j, -⟩ | ⟨w', j, -⟩ | ⟨w', j, j2, -⟩
  · exact absurd (k3.trans j) (k4 _)
  · exact absurd (k3.trans j) (k4 _)
  · exact ⟨w', _, k3.trans j, j2⟩

section
open Ex
example : w3.Legal (.replace 0 12 (9, 7) false env) ∧ ∀ t < 7, failsAt w3 (.replace 0 12 (9, 7) false env) t = true :=
  ⟨legalB_sound (by decide +kernel), by decide +kernel⟩
end

/-- C72: `modify`: if a call throws, the element has been erased from all indices, and nothing else has changed. -/
theorem C72_modify {x : Id} {mod : V → V × Bool} {e : Nat → Env} (r : Reach w) (l : w.Legal (.modify i x mod e)) (hon : Honest (w.answers i) fate)
    (h : (w.stepR (.modify i x mod e)).throws fate) : ∃ w' ret, (w.stepR (.modify i x mod e)).result fate = .threw (w', ret) ∧ Lost w w' i x ∧ Deleted w w' x := by
  obtain ⟨e1, e2, k1, k2, k3, k4⟩ := C72_exception r l hon h
  have l' := legal_within (e' := e2) l k1 fun _ _ _ _ _ _ ho => nomatch ho
  rcases eff_modify r.inv l' with ⟨w', j, -⟩ | ⟨w', j, -⟩ | ⟨w', y, j, j2, j3, -⟩
  · exact absurd (k3.trans j) (k4 _)
  · exact absurd (k3.trans j) (k4 _)
  · exact ⟨w', _, k3.trans j, j2, j3⟩

section
open Ex
example : w3.Legal (.modify 0 12 (fun v => ((v.1 + 10, 7), false)) env) ∧ ∀ t < 7, failsAt w3 (.modify 0 12 (fun v => ((v.1 + 10, 7), false)) env) t = true :=
  ⟨legalB_sound (by decide +kernel), by decide +kernel⟩
end

/-- C72: `modify` with a rollback function that restores the keys, the same. -/
theorem C72_modify_rollback {x : Id} {mod back : V → V × Bool} {e e' : Nat → Env} (r : Reach w) (l : w.Legal (.modifyRb i x mod back e e')) (hon : Honest (w.answers i) fate)
    (hc : w.cs[i]? = some c) (hb : Restores c.asked mod back (w.m.val x)) (h : (w.stepR (.modifyRb i x mod back e e')).throws fate) :
    ∃ w' ret, (w.stepR (.modifyRb i x mod back e e')).result fate = .threw (w', ret) ∧ Lost w w' i x ∧ Deleted w w' x := by
  obtain ⟨e1, e2, k1, k2, k3, k4⟩ := C72_exception r l hon h
  have l' := legal_within (e' := e2) l k1 (by
    rintro i' x' mod' back' f f' ho
    left
    cases ho
    intro d hd
    obtain rfl := Option.some.inj (hc.symm.trans hd)
    exact hb)
  rcases eff_modifyRb r.inv l' with ⟨w', j, -⟩ | ⟨w', j, -⟩ | ⟨w', j, -⟩ | ⟨w', y, j, j2, j3, -⟩
  · exact absurd (k3.trans j) (k4 _)
  · exact absurd (k3.trans j) (k4 _)
  · exact absurd (k3.trans j) (k4 _)
  · exact ⟨w', _, k3.trans j, j2, j3⟩

section
open Ex
example : w3.Legal (.modifyRb 0 12 modA backA env env) ∧ Restores c0.asked modA backA (w3.m.val 12) ∧ ∀ t < 2, failsAt w3 (.modifyRb 0 12 modA backA env env) t = true :=
  ⟨⟨c0, hc0, by rw [elems0 hc0]; simp, Or.inl (w3_restores hc0)⟩, w3_restores hc0, by decide +kernel⟩
end

/-- C72: `rehash` and `reserve`. -/
theorem C72_rehash {k n : Nat} {e : Env} (r : Reach w) (l : w.Legal (.rehash i k n e)) (hon : Honest (w.answers i) fate) (h : (w.stepR (.rehash i k n e)).throws fate) :
    ∃ w' ret, (w.stepR (.rehash i k n e)).result fate = .threw (w', ret) ∧ Unchanged w w' i ∧ w'.m = w.m := by
  obtain ⟨e1, e2, k1, k2, k3, k4⟩ := C72_exception r l hon h
  have l' := legal_within (e' := e2) l k1 fun _ _ _ _ _ _ ho => nomatch ho
  obtain ⟨w', j | ⟨j, -⟩, j2, j3⟩ := eff_rehash r.inv l'
  · exact absurd (k3.trans j) (k4 _)
  · exact ⟨w', _, k3.trans j, j3, j2⟩

section
open Ex
/-- Two keys are hashed. -/
example : w3.Legal (.rehash 0 1 100 (env 0)) ∧ ∀ t < 2, failsAt w3 (.rehash 0 1 100 (env 0)) t = true := ⟨legalB_sound (by decide +kernel), by decide +kernel⟩
end

/-- C72: how often an operation calls the functions of each index of its container, whatever these do: at most as often as the table `Op.bound`
(`Verif/Cont/CallBound.lean`) says, in terms of the number of elements and the number of different keys. -/
theorem C72_calls {k : Nat} {S : Spec V} (κ : CallKind) (r : Reach w) (l : w.Legal op) (hc : w.cs[op.target]? = some c) (hS : c.asked[k]? = some S)
    (fate : Nat → UserCall V → Option Bool) :
    ((w.stepR op).calls fate).countP (UserCall.is κ k) ≤ op.bound κ k S c.elems.length (S.keysIn w.m.val c.elems) :=
  stepR_calls r l hc hS fate

section
open Ex
/-- For the insertion above, into 2 elements: at most `2 * log2 3 + 1 = 3` comparisons, one key extraction, 3 hash values, 5 tests for equality. Made: 2, 1, 1, 1. -/
example : Op.bound .less 0 (.ord true fun a b : Val => a.1 < b.1) 2 0 (.insert 0 (7, 7) 14 {} none env) = 3 ∧
    ((w3.stepR (.insert 0 (7, 7) 14 {} none env)).calls (failAt w3 0 9)).countP (UserCall.is .less 0) = 2 ∧
    ((w3.stepR (.insert 0 (7, 7) 14 {} none env)).calls (failAt w3 0 9)).countP (UserCall.is .same 1) = 1 := ⟨by decide +kernel, by decide +kernel, by decide +kernel⟩
end

/-- C72: there are no other calls. -/
theorem C72_only_indices (r : Reach w) (l : w.Legal op) (hc : w.cs[op.target]? = some c) (fate : Nat → UserCall V → Option Bool) :
    ∀ q ∈ (w.stepR op).calls fate, ∃ S, c.asked[q.index]? = some S := by
  intro q hq
  cases hS : c.asked[q.index]? with
  | some S => exact ⟨S, rfl⟩
  | none =>
    have self : ∃ κ, UserCall.is κ q.index q = true := by
      cases q with
      | less => exact ⟨.less, by simp [UserCall.is, UserCall.index]⟩
      | same => exact ⟨.same, by simp [UserCall.is, UserCall.index]⟩
      | hash => exact ⟨.hash, by simp [UserCall.is, UserCall.index]⟩
      | key => exact ⟨.key, by simp [UserCall.is, UserCall.index]⟩
    obtain ⟨κ, hκ⟩ := self
    have h := stepR_calls_none (κ := κ) r l hc hS fate
    rw [List.countP_eq_zero] at h
    exact absurd hκ (h q hq)

/-- C72: an operation on a container whose hashed index `k` need not grow hashes at most one key in that index. (`rehash` hashes up to all keys; `modify` with rollback hashes
the new key and, if that fails, the restored one.) -/
theorem C72_hash_once {k : Nat} {d : Hash.Cat} {eq : V → V → Bool} {hf : V → Nat} {pol : Pol} {ml : Nat} {hp : Hash.Heap} {a : Hash.Arr} (r : Reach w) (l : w.Legal op)
    (hc : w.cs[op.target]? = some c) (hL : c.ls[k]? = some (.hash d eq hf pol ml hp a)) (room : c.elems.length < ml)
    (h1 : ∀ i k n e, op ≠ .rehash i k n e) (h2 : ∀ i x f g e e', op ≠ .modifyRb i x f g e e') (fate : Nat → UserCall V → Option Bool) :
    ((w.stepR op).calls fate).countP (UserCall.is .hash k) ≤ 1 :=
  stepR_hash_once r l hc hL (by rintro _ _ _ _ _ _ _ ⟨⟩; exact room) h1 h2 fate

section
open Ex
/-- There is room in index 1 of container 0. -/
example : (match (c0.ls[1]? : Option (Layer Val)) with | some (Layer.hash _ _ _ _ ml _ _) => decide (c0.elems.length < ml) | _ => false) = true := by decide +kernel
end

end MI.Cont
