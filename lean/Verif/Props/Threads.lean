import Verif.Mt.Inv
import Verif.Mt.Locks
import Verif.Mt.Play
import Verif.Mt.Ends
/-!
# C63: threads and safe mode

In safe mode every iterator is a node of a linked list kept by the index it belongs to, so that even operations that only read a container, like `find` or copying an
iterator, write to memory shared by all users of the container. The release notes nevertheless promise what holds for ordinary containers:
*"Concurrent access to different containers is safe. Concurrent read-only access to the same container is safe."*

`Verif/Mt/Spec.lean` says what operations do when they run alone (`Op.effect`) and which may overlap in time (`Op.use`, `Use.Compat`); `Rules` of `Verif/Mt/Model.lean` is that only
such operations overlap. `Reach Rules σ`: some number of threads, keeping to the rules, with their steps interleaved in some way, have got to `σ`.
-/
namespace MI.Mt
open MI

/-- Two threads are about to access the same memory location, one of them to write to it. -/
def Race (σ : Sys) (t u : Tid) : Prop :=
  ∃ th th', σ.thr t = some th ∧ σ.thr u = some th' ∧ ∃ ℓ b b', (ℓ, b) ∈ th.code.access ∧ (ℓ, b') ∈ th'.code.access ∧ (b = true ∨ b' = true)

/-- No thread is changing the iterator object `y`, or the index it belongs to. -/
def Sys.Quiet (σ : Sys) (y : Nat) : Prop := ∀ t th, σ.thr t = some th → y ∉ th.use.wIt ∧ (σ.views y).cont ∉ th.use.wC

/-- The objects reached from `y` by following `next`, up to a null pointer. -/
def Members (next : Nat → Nat) : Nat → List Nat → Prop
  | y, [] => y = 0
  | y, z :: l => y = z ∧ y ≠ 0 ∧ Members next (next y) l

namespace Ex
/-- Threads 1 and 2 each get an iterator (11, 12) to elements (5, 6) of the index 100; both are in the middle of it, the thread 2 has locked the mutex and the thread 1 waits for it.
The thread 3 got an iterator (13) to the element 7 of the index 200 of another container and is erasing this element. -/
def readers : List Ev := [.start 1 (.make 11 100 5), .start 2 (.make 12 100 6), .go 1 2, .go 2 5, .start 3 (.make 13 200 7), .fin 3, .start 3 (.erase 14 200 7), .go 3 9]

/-- The threads 1 and 2 finish and go on: one copies its iterator to 15, the other dereferences its own, which needs a temporary (16). All finish. -/
def readersEnd : List Ev := readers ++ [.fin 2, .fin 1, .start 1 (.copy 15 11), .start 2 (.deref 12 16 9), .go 2 3, .go 1 3, .go 3 4, .fin 2, .fin 3, .fin 1]

def σ1 : Sys := (Sys.init.play (fun V o => o.use V) [1, 2, 3] readers).getD Sys.init
def σ2 : Sys := (Sys.init.play (fun V o => o.use V) [1, 2, 3] readersEnd).getD Sys.init

theorem played {use : (Nat → View) → Op → Use} {es : List Ev} (h : (Sys.init.play use [1, 2, 3] es).isSome = true) :
    Reach (RulesWith use) ((Sys.init.play use [1, 2, 3] es).getD Sys.init) := by
  obtain ⟨σ, e⟩ := Option.isSome_iff_exists.1 h
  rw [e]
  exact (play_reach Reach.init (fun u h => absurd rfl h) e).1

theorem σ1_reach : Reach Rules σ1 := played (by decide +kernel)
theorem σ2_reach : Reach Rules σ2 := played (by decide +kernel)
end Ex
open Ex

/-- C63: as long as threads keep to the rules, no two of them ever access the same memory location at the same time with one of them writing to it. -/
theorem C63_no_race {σ : Sys} (h : Reach Rules σ) {t u : Tid} (hne : t ≠ u) : ¬ Race σ t u := by
  rintro ⟨th, th', ht, hu, ℓ, b, b', h1, h2, h3⟩
  obtain ⟨lnk, I⟩ := h.inv
  have k := ((I.act t th ht).access h1).excl (I.dis t u th th' ht hu hne) ((I.act u th' hu).access h2)
  rcases h3 with e | e
  · rw [k.1] at e; cases e
  · rw [k.2] at e; cases e

/-- In the example, the thread 2 reads the head of the list of the index 100 while the thread 1 waits for the mutex, and the thread 3 is in the middle of the list of 200. -/
example : Reach Rules σ1 ∧ (σ1.thr 2).map (fun th => th.code.access) = some [(.link (.head 100), true)] ∧ σ1.mem.mtx 100 = some 2 ∧ (σ1.run 1).isNone = true ∧
    (σ1.thr 1).isSome = true ∧ ((σ1.thr 3).map fun th => th.code.access) = some [(.link (.head 200), false)] ∧ ¬ Race σ1 2 3 :=
  ⟨σ1_reach, by decide +kernel, by decide +kernel, by decide +kernel, by decide +kernel, by decide +kernel, C63_no_race σ1_reach (by decide)⟩

/-- C63: as long as threads keep to the rules, none of them follows a null pointer or is told that an iterator it may use is not valid. -/
theorem C63_no_crash {σ : Sys} (h : Reach Rules σ) {t : Tid} {th : Thread} (ht : σ.thr t = some th) : th.code ≠ .crash := by
  obtain ⟨lnk, I⟩ := h.inv
  intro e
  have k := I.act t th ht
  rw [e] at k; exact k

example : ∃ th, σ1.thr 3 = some th ∧ th.code ≠ .crash := by
  obtain ⟨th, h⟩ := Option.isSome_iff_exists.1 (show (σ1.thr 3).isSome = true by decide +kernel)
  exact ⟨th, h, C63_no_crash σ1_reach h⟩

theorem quiet_of {σ : Sys} {lnk : Nat → Nat} (I : Inv σ lnk) {y : Nat} (hy : σ.Quiet y) : σ.mem.cont y = (σ.views y).cont ∧ σ.mem.val y = (σ.views y).val ∧ lnk y = (σ.views y).cont :=
  I.quiet y fun t th ht q => q.elim (hy t th ht).1 fun q => (hy t th ht).2 ((I.snap t th ht y).2.1 q)

/-- C63: an iterator no thread is busy changing is what it would be if the operations completed so far had been carried out one after the other: it is valid or not, for the same
index, and at the same position. -/
theorem C63_as_if_alone {σ : Sys} (h : Reach Rules σ) {y : Nat} (hy : σ.Quiet y) : (⟨σ.mem.cont y, σ.mem.val y⟩ : View) = after noViews σ.hist y := by
  obtain ⟨lnk, I⟩ := h.inv
  have q := quiet_of I hy
  show _ = σ.views y
  rw [q.1, q.2.1]

theorem quiet_idle {σ : Sys} (h : ∀ t, σ.thr t = none) (y : Nat) : σ.Quiet y := fun t th ht => by rw [h t] at ht; cases ht

theorem σ2_idle : ∀ t, σ2.thr t = none := by
  intro t
  by_contra hc
  have hl : t ∈ [1, 2, 3] := by
    obtain ⟨σ, e⟩ := Option.isSome_iff_exists.1 (show (Sys.init.play (fun V o => o.use V) [1, 2, 3] readersEnd).isSome = true by decide +kernel)
    have : σ2 = σ := by unfold σ2; rw [e]; rfl
    exact (play_reach Reach.init (fun u h => absurd rfl h) e).2 t (this ▸ hc)
  have h3 : ∀ t ∈ [1, 2, 3], (σ2.thr t).isNone = true := by decide +kernel
  exact hc (Option.isNone_iff_eq_none.1 (h3 t hl))

/-- At the end of the example: 11, 12 and 15 are valid; 13 was invalidated by the erasure, as was the local iterator 14. -/
example : [11, 12, 13, 14, 15, 16].map (fun y => (σ2.mem.cont y, σ2.mem.val y)) =
      [(100, (5, false)), (100, (6, false)), (0, (7, false)), (0, (7, false)), (100, (5, false)), (0, (9, false))] ∧
    ∀ y, (⟨σ2.mem.cont y, σ2.mem.val y⟩ : View) = after noViews σ2.hist y :=
  ⟨by decide +kernel, fun y => C63_as_if_alone σ2_reach (quiet_idle σ2_idle y)⟩

theorem members_of {next : Nat → Nat} {y : Nat} {l : List Nat} (h : Safe.Chain next y l) : Members next y l := by
  induction l generalizing y with
  | nil => exact h
  | cons z l ih => obtain ⟨rfl, h1, h2⟩ := h; exact ⟨rfl, h1, ih h2⟩

/-- C63: the list of an index no thread is using contains exactly the iterators that are valid for the index, each once. -/
theorem C63_lists {σ : Sys} (h : Reach Rules σ) {s : Nat} (hs : s ≠ 0) (hu : ∀ t th, σ.thr t = some th → s ∉ th.use.rC ∧ s ∉ th.use.wC) :
    ∃ l, Members σ.mem.next (σ.mem.head s) l ∧ l.Nodup ∧ ∀ y, y ∈ l ↔ (after noViews σ.hist y).cont = s := by
  obtain ⟨lnk, I⟩ := h.inv
  obtain ⟨l, h1, h2, h3⟩ := I.rep.chain s hs
  refine ⟨l, members_of h1, h2, fun y => (h3 y).trans ?_⟩
  show lnk y = s ↔ (σ.views y).cont = s
  by_cases hq : ∀ t th, σ.thr t = some th → ¬ (th.perm t).mine y
  · rw [(I.quiet y hq).2.2]
  · simp only [not_forall, not_not] at hq
    obtain ⟨t, th, ht, hm⟩ := hq
    obtain ⟨n1, n2⟩ := hu t th ht
    refine ⟨fun e => ?_, fun e => ?_⟩
    · have r := I.rng t th ht y hm
      rw [show (⟨σ.mem, lnk⟩ : G).lnk y = s from e] at r
      exact r.elim (absurd · hs) (·.elim (absurd · n1) (absurd · n2))
    · have e' := (I.snap t th ht y).1 (.inl hm)
      rcases hm with hm | hm
      · have r := cont_of_legal (I.legal t th ht) (.inl hm)
        rw [e', e] at r
        exact r.elim (absurd · hs) (·.elim (absurd · n1) (absurd · n2))
      · rw [e', e] at hm; exact absurd hm n2

example : ∃ l, Members σ2.mem.next (σ2.mem.head 100) l ∧ l.Nodup ∧ ∀ y, y ∈ l ↔ (after noViews σ2.hist y).cont = 100 :=
  C63_lists σ2_reach (by decide) fun t th ht => by rw [σ2_idle t] at ht; cases ht

example : Members σ2.mem.next (σ2.mem.head 100) [15, 11, 12] := by
  refine ⟨?_, ?_, ?_, ?_, ?_, ?_, show _ = 0 from ?_⟩ <;> decide +kernel

/-- C63: when no operation is under way, no mutex is locked. -/
theorem C63_unlocked {D : Sys → Tid → Op → Prop} {σ : Sys} (h : Reach D σ) (hi : ∀ t, σ.thr t = none) (s : Nat) : σ.mem.mtx s = none := by
  cases e : σ.mem.mtx s with
  | none => rfl
  | some t =>
    obtain ⟨th, k⟩ := h.locks.idle s t e
    rw [hi t] at k; cases k

example : ∀ s, σ2.mem.mtx s = none := C63_unlocked σ2_reach σ2_idle

/-- C63: threads never wait for each other in a circle, whatever they do (`D` may admit anything: also programs that break the rules): if operations are under way and none has
crashed, then some thread can go on. -/
theorem C63_no_deadlock {D : Sys → Tid → Op → Prop} {σ : Sys} (h : Reach D σ) (hc : ∀ t th, σ.thr t = some th → th.code ≠ .crash) {t : Tid} (ht : σ.thr t ≠ none) :
    ∃ u, (σ.run u).isSome := progress h hc ht

/-- C63: as long as threads keep to the rules, some thread can go on. -/
theorem C63_progress {σ : Sys} (h : Reach Rules σ) {t : Tid} (ht : σ.thr t ≠ none) : ∃ u, (σ.run u).isSome :=
  C63_no_deadlock h (fun _ _ hu => C63_no_crash h hu) ht

/-- In the example, the thread 1 waits for the thread 2. -/
example : (σ1.run 1).isNone = true ∧ ∃ u, (σ1.run u).isSome :=
  ⟨by decide +kernel, C63_progress σ1_reach (t := 1) fun e => by
    have : (σ1.thr 1).isSome = true := by decide +kernel
    rw [e] at this; cases this⟩

/-- C63: operations end: as long as no new operations begin, threads cannot go on for ever, however they take turns. -/
theorem C63_ends {σ : Sys} (h : Reach Rules σ) : ¬ ∃ run : Nat → Sys, run 0 = σ ∧ ∀ n, ∃ t, (run n).run t = some (run (n + 1)) := by
  rintro ⟨f, e, hf⟩
  have key : ∀ a, Acc (fun b a : Sys => ∃ t, a.run t = some b) a → ∀ n, f n = a → False := fun a ha => by
    induction ha with
    | intro a _ ih => intro n e; exact ih (f (n + 1)) (by rw [← e]; exact hf n) (n + 1) rfl
  exact key σ (ends h h.locks.fin) 0 e

/-- C63: when no thread can go on, then all operations are completed. -/
theorem C63_complete {σ : Sys} (h : Reach Rules σ) (hn : ∀ t, σ.run t = none) (t : Tid) : σ.thr t = none := by
  by_contra ht
  obtain ⟨u, hu⟩ := C63_progress h ht
  rw [hn u] at hu; cases hu

/-- In the example, threads can go on for more steps. -/
example : (((σ1.goN 3 2).bind (Sys.goN 5 1)).bind (Sys.goN 5 3)).isSome = true ∧ ¬ ∃ run : Nat → Sys, run 0 = σ1 ∧ ∀ n, ∃ t, (run n).run t = some (run (n + 1)) :=
  ⟨by decide +kernel, C63_ends σ1_reach⟩

example (t : Tid) : σ2.thr t = none := C63_complete σ2_reach (fun t => by simp only [Sys.run, σ2_idle t]) t

namespace Ex
/-- Two threads transfer elements between the same two indices in opposite directions, which the rules forbid. Both have come to where they lock both mutexes; the thread 1 has
locked one of them. -/
def crossing : List Ev :=
  [.start 1 (.make 11 100 5), .fin 1, .start 2 (.make 21 200 6), .fin 2, .start 2 (.transfer 22 23 24 200 100 9 6), .go 2 32, .start 1 (.transfer 12 13 14 100 200 9 5), .go 1 33]
def noUse : (Nat → View) → Op → Use := fun _ _ => ⟨[], [], [], []⟩
def σ3 : Sys := (Sys.init.play noUse [1, 2, 3] crossing).getD Sys.init
theorem σ3_reach : Reach (RulesWith noUse) σ3 := played (by decide +kernel)
end Ex

/-- The thread 2 waits for the mutex of 100 that the thread 1 has locked; the thread 1 can lock that of 200 too. -/
example : Reach (RulesWith noUse) σ3 ∧ σ3.mem.mtx 100 = some 1 ∧ (σ3.run 2).isNone = true ∧ (σ3.thr 2).isSome = true ∧
    ((σ3.run 1).map fun σ => (σ.mem.mtx 100, σ.mem.mtx 200)) = some (some 1, some 1) :=
  ⟨σ3_reach, by decide +kernel, by decide +kernel, by decide +kernel, by decide +kernel⟩

/-! ### iterators that outlive elements

An iterator of an ordinary container may be destroyed by one thread while another thread changes the container. In safe mode this needs the same care as any other access to the container. -/

/-- As `Op.use`, but the destruction of an iterator concerns nothing except the iterator object. -/
def Op.useOrdinary (V : Nat → View) : Op → Use
  | .drop it => ⟨[it], [], [], []⟩
  | o => o.use V

/-- The destruction of an iterator may overlap with operations that change the container it belongs to. -/
def C63_drop_is_private : Prop := ∀ σ, Reach (RulesWith fun V o => o.useOrdinary V) σ → ∀ t th, σ.thr t = some th → th.code ≠ .crash

namespace Ex
/-- The thread 1 destroys its iterator 11 to the element 5. After it has read which index the iterator belongs to, the thread 2 erases the element. -/
def dropping : List Ev := [.start 1 (.make 11 100 5), .fin 1, .start 1 (.drop 11), .go 1 1, .start 2 (.erase 12 100 5), .fin 2, .go 1 2]
def σ4 : Sys := (Sys.init.play (fun V o => o.useOrdinary V) [1, 2, 3] dropping).getD Sys.init
def isCrash : Code → Bool
  | .crash => true
  | _ => false
end Ex

/-- C63: it may not: the thread that destroys the iterator then looks for it in a list where it is no more, to the end of the list and beyond. -/
theorem C63_drop_is_not_private : ¬ C63_drop_is_private := by
  intro h
  obtain ⟨th, e⟩ := Option.isSome_iff_exists.1 (show (σ4.thr 1).isSome = true by decide +kernel)
  refine h σ4 (played (by decide +kernel)) 1 th e ?_
  have : (σ4.thr 1).map (fun th => isCrash th.code) = some true := by decide +kernel
  rw [e] at this
  cases hc : th.code <;> simp [hc, isCrash] at this
  rfl

end MI.Mt
