import Verif.Alloc.Lemmas
/-!
# Allocators: C52, C53, C54

`Reach T w`: the programs, for allocators with traits `T`. `w.freed`: all calls of `deallocate`, each with the allocator the block came from (`org`) and the one
used (`by_`). Allocators are taken up to `==`.
-/
namespace MI.Alloc

/-! ## The claim -/

/-- All memory of a container comes from its allocator (`get_allocator()`, which `c.al` is). -/
def Owned (w : World) : Prop := ∀ c ∈ w.cs, c.hdr = c.al ∧ (∀ n ∈ c.nodes, n = c.al) ∧ ∀ s ∈ c.arrs, s.org = c.al

/-- Every block has been deallocated with an allocator equal to the one it was allocated with. -/
def Proper (w : World) : Prop := ∀ f ∈ w.freed, f.org = f.by_

/-- C52, what the standard requires of allocator-aware containers. -/
def C52_owned : Prop := ∀ T w, Reach T w → Owned w
def C52_proper : Prop := ∀ T w, Reach T w → Proper w

/-! ## What holds -/

theorem rules_nodes (T : Traits) : Rules T (fun _ _ => True) True False :=
  ⟨fun _ _ => trivial, fun _ _ _ h => h.elim, fun _ _ _ _ => trivial, fun _ _ _ _ _ _ => trivial, fun _ _ _ _ _ => trivial, fun _ _ _ _ _ _ _ _ _ _ => trivial⟩

theorem rules_prop {T : Traits} (p : T.pocs = true) (q : T.pocma = true) : Rules T (fun _ s => s.org = s.al) True True :=
  ⟨fun _ _ => rfl, fun _ _ h _ => h, fun _ _ _ _ => rfl, fun _ _ _ _ _ h => h, fun _ _ _ _ _ => rfl, fun h => by
    rcases h with h | h
    · rw [p] at h; exact nomatch h
    · rw [q] at h; exact nomatch h⟩

theorem rules_keep (T : Traits) : Rules T (fun a s => s.al = a ∧ s.org = a) False True :=
  ⟨fun _ _ => ⟨rfl, rfl⟩, fun _ _ h _ => h.2.trans h.1.symm, fun _ _ _ h => h.elim, fun _ _ _ _ _ h => h, fun _ _ _ _ h => ⟨h.1, h.1⟩,
    fun _ _ _ _ _ _ _ _ h h' => ⟨h.1, h'.2⟩⟩

theorem reach_inv {T : Traits} {R : Al → Space → Prop} {B : Prop} (r : Rules T R True B) {w : World} (h : Reach T w) : Inv R B w := by
  induction h with
  | init => exact inv_init
  | step o _ l e ih =>
    obtain ⟨w', k, i⟩ := step_ok r ih l (Or.inl trivial)
    rw [e] at k
    exact Option.some.inj k ▸ i

/-- C52 for nodes, whatever the traits and the history: the header and all nodes of a container come from its allocator, and every node is deallocated with an allocator
equal to the one it was allocated with, by containers and by node handles. -/
theorem C52_nodes {T : Traits} {w : World} (h : Reach T w) :
    (∀ c ∈ w.cs, c.hdr = c.al ∧ ∀ n ∈ c.nodes, n = c.al) ∧ ∀ f ∈ w.freed, f.array = false → f.org = f.by_ :=
  let i := reach_inv (rules_nodes T) h
  ⟨fun c hc => ⟨(i.cs c hc).1, (i.cs c hc).2.1⟩, fun f hf e => i.freed f hf (by rw [e]; exact fun h => nomatch h)⟩

/-- C52, partial: deallocation is proper in every history if the allocator is propagated by swap and by move assignment. -/
theorem C52_proper_partial {T : Traits} {w : World} (p : T.pocs = true) (q : T.pocma = true) (h : Reach T w) : Proper w :=
  fun f hf => (reach_inv (rules_prop p q) h).freed f hf (fun _ => trivial)

/-- Programs which make no container from a container with another allocator. -/
inductive ReachKeep (T : Traits) : World → Prop
  | init : ReachKeep T ⟨[], [], []⟩
  | step {w w'} (o : Op) : ReachKeep T w → w.Legal T o → w.Keeps T o → w.step T o = some w' → ReachKeep T w'

/-- C52, partial: both claims hold of programs which do not make a container from one with another allocator (by copy or move construction with an allocator, by
`select_on_container_copy_construction`, or by assignment that does not propagate). Whatever the traits. -/
theorem C52_keep_partial {T : Traits} {w : World} (h : ReachKeep T w) : Owned w ∧ Proper w := by
  have : Inv (fun a s => s.al = a ∧ s.org = a) True w := by
    induction h with
    | init => exact inv_init
    | step o _ l k e ih =>
      obtain ⟨w', k, i⟩ := step_ok (rules_keep T) ih l (Or.inr k)
      rw [e] at k
      exact Option.some.inj k ▸ i
  exact ⟨fun c hc => ⟨(this.cs c hc).1, (this.cs c hc).2.1, fun s hs => ((this.cs c hc).2.2 s hs).2⟩, fun f hf => this.freed f hf (fun _ => trivial)⟩

/-! ## What does not hold -/

/-- Executes steps. -/
def run (T : Traits) : List Op → World → Option World
  | [], w => some w
  | o :: os, w => (w.step T o).bind (run T os)

/-- Allocators that do not propagate, as `std::pmr::polymorphic_allocator`, whose `select_on_container_copy_construction` gives the default allocator (0). -/
def pmr : Traits := ⟨false, false, false, fun _ => 0⟩

/-- A container with a hashed index and allocator 1, and an empty one with allocator 2. -/
def w2 : World := ⟨[⟨1, 1, [1], [⟨.buckets, 1, 1⟩]⟩, ⟨2, 2, [], [⟨.buckets, 2, 2⟩]⟩], [], []⟩

theorem w2_reach (T : Traits) : Reach T w2 :=
  .step (.insert 0 true) (.step (.new [.buckets] 2) (.step (.new [.buckets] 1) .init trivial rfl) trivial rfl) ⟨_, rfl⟩ rfl

/-- C52 is false: the bucket array of `copy=container(x,al)` comes from the allocator of `x`, not from `al`. -/
theorem C52_owned_false : ¬ C52_owned := by
  intro h
  have r : Reach pmr _ := .step (.copy 0 (some 2) none) (w2_reach pmr) ⟨_, rfl⟩ rfl
  have := (h _ _ r ⟨2, 2, [2], [⟨.buckets, 1, 1⟩]⟩ (by decide)).2.2 ⟨.buckets, 1, 1⟩ (by decide)
  exact absurd this (by decide)

/-- C52 is false: the move assignment of a container with a hashed or random access index from one with an unequal allocator, neither propagated by move assignment,
deallocates the old array of the target with the allocator of the source. -/
theorem C52_proper_false : ¬ C52_proper := by
  intro h
  have r : Reach pmr _ := .step (.moveAssign 1 0 none) (w2_reach pmr) ⟨by decide, _, _, rfl, rfl, rfl⟩ rfl
  have := h _ _ r ⟨true, 2, 1⟩ (by decide)
  exact absurd this (by decide)

/-- The same for random access indices, and whatever propagates on copy assignment and on swap. -/
theorem C52_proper_false_rnd : ∀ T : Traits, T.pocma = false → ∃ w, Reach T w ∧ ¬ Proper w := by
  intro T p
  have r2 : Reach T ⟨[⟨1, 1, [1], [⟨.ptrs, 1, 1⟩]⟩, ⟨2, 2, [], [⟨.ptrs, 2, 2⟩]⟩], [], []⟩ :=
    .step (.insert 0 true) (.step (.new [.ptrs] 2) (.step (.new [.ptrs] 1) .init trivial rfl) trivial rfl) ⟨_, rfl⟩ rfl
  obtain ⟨c, m, s, f⟩ := T
  cases p
  cases s
  · refine ⟨_, .step (.moveAssign 1 0 none) r2 ⟨by decide, _, _, rfl, rfl, rfl⟩ rfl, fun h => ?_⟩
    exact absurd (h ⟨true, 2, 1⟩ (by simp [Cont.moveAssign, Cont.moveTo, Cont.swap, Cont.swapElements, Cont.like, Cont.arrsLike, Cont.clones, Cont.clear, Cont.destroy, swapArrs, Space.swap, Space.new, Space.free])) (by decide)
  · refine ⟨_, .step (.moveAssign 1 0 none) r2 ⟨by decide, _, _, rfl, rfl, rfl⟩ rfl, fun h => ?_⟩
    exact absurd (h ⟨true, 2, 1⟩ (by simp [Cont.moveAssign, Cont.moveTo, Cont.swap, Cont.swapElements, Cont.like, Cont.arrsLike, Cont.clones, Cont.clear, Cont.destroy, swapArrs, Space.swap, Space.new, Space.free])) (by decide)

/-- A rehash after a copy: the container `copy=x` has the default allocator 0 and a bucket array from allocator 1, which is deallocated with allocator 0 or the other
way round. No assignment or swap is involved. -/
theorem C52_proper_false_rehash : ∃ w, Reach pmr w ∧ ¬ Proper w := by
  have r : Reach pmr _ := .step (.copy 0 none none) (w2_reach pmr) ⟨_, rfl⟩ rfl
  refine ⟨_, .step (.destroy 2) (.step (.renew 2 0) r ⟨_, _, rfl, rfl⟩ rfl) ⟨_, rfl⟩ rfl, fun h => ?_⟩
  exact absurd (h ⟨true, 0, 1⟩ (by decide)) (by decide)

/-! ## C53: node handles -/

/-- C53: a step of a program never constructs an allocator over a live one in a node handle, nor destroys or uses one that is not alive. -/
theorem C53_handles_safe {T : Traits} {w : World} {o : Op} (h : Reach T w) (l : w.Legal T o) : ∃ w', w.step T o = some w' :=
  let ⟨w', k, _⟩ := step_ok (rules_nodes T) (reach_inv (rules_nodes T) h) l (Or.inl trivial)
  ⟨w', k⟩

/-- C53: a handle has an allocator if and only if it has a node, and then one equal to that the node was allocated with. -/
theorem C53_handle_allocator {T : Traits} {w : World} (h : Reach T w) : ∀ x ∈ w.hs, x.al = x.node := (reach_inv (rules_nodes T) h).hs

/-- C53: move construction, move assignment and swap of handles: the node and its allocator go to the new handle together; a node that is
replaced is deallocated with its allocator. -/
theorem C53_handle_moves {T : Traits} {w : World} (h : Reach T w) {i j : Nat} {x y : Handle} (hx : w.hs[i]? = some x) (hy : w.hs[j]? = some y) :
    w.step T (.hmove i) = some { w with hs := w.hs.set i ⟨none, none⟩ ++ [x] } ∧
    (w.Legal T (.hassign i j) → w.step T (.hassign i j) = some { w with
      hs := (w.hs.set i y).set j ⟨none, none⟩, freed := w.freed ++ (x.node.map fun o => (⟨false, o, o⟩ : Freed)).toList }) ∧
    (w.Legal T (.hswap i j) → w.step T (.hswap i j) = some { w with hs := (w.hs.set i y).set j x }) := by
  have e := C53_handle_allocator h x (mem_get hx)
  have e' := C53_handle_allocator h y (mem_get hy)
  refine ⟨?_, fun l => ?_, fun l => ?_⟩
  · obtain ⟨_ | o, a⟩ := x <;> cases e <;>
      simp [World.step, hx, Handle.move, Handle.construct, Handle.destroyAl]
  · obtain ⟨-, x', y', hx', hy', q⟩ := l
    obtain rfl := Option.some.inj (hx.symm.trans hx')
    obtain rfl := Option.some.inj (hy.symm.trans hy')
    obtain ⟨_ | o, a⟩ := x <;> obtain ⟨_ | o', a'⟩ := y <;> cases e <;> cases e' <;>
      simp [World.step, hx, hy, Handle.assign, Handle.construct, Handle.destroyAl, Handle.delete] at q ⊢
    rcases q with q | q <;> simp [q]
  · obtain ⟨-, x', y', hx', hy', q⟩ := l
    obtain rfl := Option.some.inj (hx.symm.trans hx')
    obtain rfl := Option.some.inj (hy.symm.trans hy')
    simp only [World.step, hx, hy, hswap_ok e e' q, Option.bind_eq_bind, Option.bind_some]

/-! ## C54: the allocator of a container -/

/-- C54: what `get_allocator()` gives after each operation that makes or changes a container as a whole. A copy has what
`select_on_container_copy_construction` selects or the allocator given; a moved-to container the allocator of the source or the one given. -/
theorem C54_construct {T : Traits} {w : World} {i : Nat} {c : Cont} (hc : w.cs[i]? = some c) (a : Al) :
    (∃ w' d, w.step T (.copy i none none) = some w' ∧ w'.cs = w.cs ++ [d] ∧ d.al = T.soccc c.al ∧ d.nodes.length = c.nodes.length) ∧
    (∃ w' d, w.step T (.copy i (some a) none) = some w' ∧ w'.cs = w.cs ++ [d] ∧ d.al = a ∧ d.nodes.length = c.nodes.length) ∧
    (∃ w' b d, w.step T (.move i) = some w' ∧ w'.cs = w.cs.set i b ++ [d] ∧ d.al = c.al ∧ b.al = c.al ∧ d.nodes = c.nodes ∧ b.nodes = []) ∧
    ∃ w' b d, w.step T (.moveTo i a none) = some w' ∧ w'.cs = w.cs.set i b ++ [d] ∧ d.al = a ∧ b.al = c.al ∧ b.nodes = [] ∧ d.nodes.length = c.nodes.length ∧
      (a = c.al → d.nodes = c.nodes) := by
  refine ⟨⟨_, _, by simp only [World.step, hc, Option.bind_eq_bind, Option.bind_some]; rfl, rfl, rfl, by simp [Cont.clones, Cont.like]⟩,
    ⟨_, _, by simp only [World.step, hc, Option.bind_eq_bind, Option.bind_some]; rfl, rfl, rfl, by simp [Cont.clones, Cont.like]⟩,
    ⟨_, (c.move T).2, (c.move T).1, by simp only [World.step, hc, Option.bind_eq_bind, Option.bind_some]; rfl, rfl, rfl, rfl, rfl, rfl⟩, ?_⟩
  by_cases e : a = c.al
  · refine ⟨_, ((c.like a).swapElements T c).2, ((c.like a).swapElements T c).1,
      by simp only [World.step, hc, Option.bind_eq_bind, Option.bind_some, Cont.moveTo, if_pos e]; rfl, rfl, rfl, rfl, rfl, rfl, fun _ => rfl⟩
  · refine ⟨_, c.clear.1, ((c.like a).swapElements T ((c.like a).clones c.nodes.length)).1,
      by simp only [World.step, hc, Option.bind_eq_bind, Option.bind_some, Cont.moveTo, if_neg e]; rfl, rfl, rfl, rfl, rfl,
      by simp [Cont.swapElements, Cont.clones, Cont.like], fun h => absurd h e⟩

/-- C54: copy assignment replaces the allocator if and only if it propagates on copy assignment; move assignment if and only if it propagates on move assignment, and the
elements are transferred, not constructed anew, if the allocator is replaced or equal; swap exchanges the allocators if they propagate on swap. -/
theorem C54_assign {T : Traits} {w : World} {i j : Nat} {c d : Cont} (hc : w.cs[i]? = some c) (hd : w.cs[j]? = some d) :
    (∃ w' c', w.step T (.assign i j none) = some w' ∧ w'.cs = w.cs.set i c' ∧ c'.al = (if T.pocca then d.al else c.al) ∧ c'.nodes.length = d.nodes.length) ∧
    (∃ w' c' d', w.step T (.moveAssign i j none) = some w' ∧ w'.cs = (w.cs.set i c').set j d' ∧ c'.al = (if T.pocma then d.al else c.al) ∧
      c'.nodes.length = d.nodes.length ∧ (T.pocma = true ∨ c.al = d.al → c'.nodes = d.nodes) ∧ (¬ (T.pocma = true ∨ c.al = d.al) → c'.nodes = d.nodes.map fun _ => c.al)) ∧
    ∃ w' c' d', w.step T (.swap i j) = some w' ∧ w'.cs = (w.cs.set i c').set j d' ∧ c'.al = (if T.pocs then d.al else c.al) ∧ d'.al = (if T.pocs then c.al else d.al) ∧
      c'.nodes = d.nodes ∧ d'.nodes = c.nodes := by
  refine ⟨⟨_, _, by simp only [World.step, hc, hd, Option.bind_eq_bind, Option.bind_some]; rfl, rfl, rfl,
    by simp [Cont.assign, Cont.copy, Cont.swap, Cont.clones, Cont.like]⟩, ?_, ?_⟩
  · refine ⟨_, _, _, by simp only [World.step, hc, hd, Option.bind_eq_bind, Option.bind_some]; rfl, rfl, ?_⟩
    cases p : T.pocma
    · by_cases e : c.al = d.al
      · simp [Cont.moveAssign, p, e, Cont.swap]
      · simp [Cont.moveAssign, p, e, Cont.swap, Cont.moveTo, Cont.swapElements, Cont.clones, Cont.like, List.map_const']
    · simp [Cont.moveAssign, p, Cont.swap]
  · refine ⟨_, _, _, by simp only [World.step, hc, hd, Option.bind_eq_bind, Option.bind_some]; rfl, rfl, ?_⟩
    cases p : T.pocs <;> simp [Cont.swap]

/-! ## Examples -/

/-- A program with handles, to which `C52_nodes` and C53 apply: a node is extracted, its handle moved, and put back. -/
example : ∃ w, Reach pmr w ∧ w.hs = [⟨none, none⟩, ⟨none, none⟩] ∧ w.cs.map (·.nodes) = [[1], []] :=
  ⟨_, .step (.insertHandle 0 1) (.step (.hmove 0) (.step (.extract 0 0) (w2_reach pmr) ⟨_, _, rfl, rfl⟩ rfl) ⟨_, rfl⟩ rfl)
    ⟨_, _, rfl, rfl, by decide, rfl⟩ rfl, by decide, by decide⟩

/-- Propagating allocators, to which `C52_proper_partial` applies: move assignment, then destruction. -/
example : ∃ w, Reach ⟨true, true, true, id⟩ w ∧ w.freed = [⟨true, 2, 2⟩, ⟨false, 2, 2⟩] :=
  ⟨_, .step (.destroy 0) (.step (.moveAssign 1 0 none) (w2_reach _) ⟨by decide, _, _, rfl, rfl, rfl⟩ rfl) ⟨_, rfl⟩ rfl, by decide⟩

/-- Non-propagating allocators without construction from containers with others, to which `C52_keep_partial` applies: a copy with the same allocator is rehashed. -/
example : ∃ w, ReachKeep pmr w ∧ w.freed = [⟨true, 1, 1⟩] := by
  have r2 : ReachKeep pmr w2 :=
    .step (.insert 0 true) (.step (.new [.buckets] 2) (.step (.new [.buckets] 1) .init trivial trivial rfl) trivial trivial rfl) ⟨_, rfl⟩ trivial rfl
  refine ⟨_, .step (.renew 2 0) (.step (.copy 0 (some 1) none) r2 ⟨_, rfl⟩ (fun c hc => ?_) rfl) ⟨_, _, rfl, rfl⟩ trivial rfl, by decide⟩
  obtain rfl := Option.some.inj hc
  rfl

end MI.Alloc
