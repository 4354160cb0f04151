import Verif.Cont.Example
import Verif.Cont.ApiSpec
/-!
A host that allocates beyond all memory in use; example states for operations made of several steps.
-/
namespace MI.Cont
open MI
variable {V : Type}

def Layer.endOf : Layer V → Id
  | .hash _ _ _ _ _ _ a => a.endB
  | _ => 0

/-- All addresses a program has to keep away from. -/
def World.used (w : World V) : List Id := w.m.alloc ++ w.cs.flatMap (fun c => c.hd :: c.ls.map Layer.endOf)

def World.top (w : World V) : Id := w.used.foldr max 0 + 1

/-- The host that takes memory from the top; `f` says which calls and allocations fail. -/
def Host.top (f : Nat → Fault) : Host V where
  node w _ := w.top
  fault _ t := f t
  env w _ _ := { base := w.top + 2, cpy := w.top + 1 }

theorem le_foldr_max : ∀ {l : List Nat} {x : Nat}, x ∈ l → x ≤ l.foldr max 0
  | a :: l, x, h => by
    rcases List.mem_cons.1 h with rfl | h
    · exact Nat.le_max_left _ _
    · exact Nat.le_trans (le_foldr_max h) (Nat.le_max_right _ _)

theorem lt_top {w : World V} {x : Id} (h : x ∈ w.used) : x < w.top := Nat.lt_succ_of_le (le_foldr_max (l := w.used) h)

theorem endOf_lt {w : World V} {c : Container V} {L : Layer V} (hc : c ∈ w.cs) (hL : L ∈ c.ls) : L.endOf < w.top :=
  lt_top (List.mem_append_right _ (List.mem_flatMap.2 ⟨c, hc, List.mem_cons_of_mem _ (List.mem_map_of_mem hL)⟩))

theorem hd_lt {w : World V} {c : Container V} (hc : c ∈ w.cs) : c.hd < w.top :=
  lt_top (List.mem_append_right _ (List.mem_flatMap.2 ⟨c, hc, List.mem_cons_self ..⟩))

theorem alloc_lt {w : World V} {x : Id} (h : x ∈ w.m.alloc) : x < w.top := lt_top (List.mem_append_left _ h)

theorem Host.top_env {w : World V} {c : Container V} (hc : c ∈ w.cs) : ∀ {Ls : List (Layer V)}, (∀ L ∈ Ls, L ∈ c.ls) →
    EnvAll c.hd c.count (w.top :: w.m.alloc) (fun _ => { base := w.top + 2, cpy := w.top + 1 }) Ls
  | [], _ => trivial
  | L :: Ls, h => by
    refine ⟨?_, Host.top_env hc fun L' h' => h L' (List.mem_cons_of_mem _ h')⟩
    have e := endOf_lt hc (h L (List.mem_cons_self ..))
    cases L with
    | hash g eq hf pol ml hp a =>
      have e : a.endB < w.top := e
      have k : ∀ z ∈ c.hd :: w.top :: w.m.alloc, z ≤ w.top := by
        intro z hz
        rcases List.mem_cons.1 hz with rfl | hz
        · exact Nat.le_of_lt (hd_lt hc)
        · rcases List.mem_cons.1 hz with rfl | hz
          · exact Nat.le_refl _
          · exact Nat.le_of_lt (alloc_lt hz)
      refine ⟨Nat.succ_pos _, Nat.succ_ne_zero _, fun hz => ?_, Or.inr (Nat.lt_succ_of_lt e), Or.inl (Nat.lt_succ_self _), fun z hz => Or.inl ?_, Or.inl ?_⟩
      · exact Nat.not_succ_le_self _ (k _ hz)
      · exact Nat.lt_succ_of_le (Nat.le_succ_of_le (k z hz))
      · exact Nat.lt_succ_of_lt (Nat.lt_succ_of_lt e)
    | _ => trivial

theorem Host.top_ok (f : Nat → Fault) : (Host.top f : Host V).Ok := by
  intro w r t
  refine ⟨⟨Nat.succ_ne_zero _, fun h => Nat.lt_irrefl _ (alloc_lt h), fun c hc L hL => ?_⟩, fun c hc => Host.top_env hc fun L h => h⟩
  have e := endOf_lt hc hL
  cases L with
  | hash g eq hf pol ml hp a => exact Or.inr e
  | _ => trivial

theorem Host.top_calm : (Host.top (fun _ => {}) : Host V).Calm := fun w t => ⟨rfl, rfl, fun k => ⟨rfl, rfl, rfl, rfl⟩⟩

namespace Ex

/-- The sequences of all containers, and the handles, that an operation leaves. -/
def leaves (o : Out (World Val)) : Option (Bool × List (List (List Id)) × List (Option Id)) :=
  match o with
  | .ok w => some (true, w.cs.map (·.seqs), w.hs)
  | .threw w => some (false, w.cs.map (·.seqs), w.hs)
  | _ => none

def leavesN {α : Type} (o : Out (World Val × α)) : Option (Bool × List (List (List Id)) × List (Option Id) × α) :=
  match o with
  | .ok (w, a) => some (true, w.cs.map (·.seqs), w.hs, a)
  | .threw (w, a) => some (false, w.cs.map (·.seqs), w.hs, a)
  | _ => none

/-- More elements: container 0 has, in the order of its ordered index, 12, 11, 22, 23; container 1 has 16, 21, 17. -/
def ops4 : List (Op Val) := [.insert 1 (3, 1) 21 {} none env, .insert 0 (4, 7) 22 {} none env, .insert 0 (5, 6) 23 {} none env]

def w4 : World Val := (runs w3 ops4).getD w0

theorem w4_some : (runs w3 ops4).isSome = true := by decide +kernel

theorem w4_reach : Reach w4 := by
  obtain ⟨w', h⟩ := Option.isSome_iff_exists.1 w4_some
  have : w4 = w' := by unfold w4; rw [h]; rfl
  rw [this]
  exact runs_reach w3_reach h

def d0 : Container Val := w4.cs[0]?.getD ⟨0, [], 0⟩
def d1 : Container Val := w4.cs[1]?.getD ⟨0, [], 0⟩

theorem hd0 : w4.cs[0]? = some d0 := by
  have h : (w4.cs[0]?).isSome = true := by decide +kernel
  obtain ⟨c, e⟩ := Option.isSome_iff_exists.1 h
  unfold d0
  rw [e]; rfl

theorem hd1 : w4.cs[1]? = some d1 := by
  have h : (w4.cs[1]?).isSome = true := by decide +kernel
  obtain ⟨c, e⟩ := Option.isSome_iff_exists.1 h
  unfold d1
  rw [e]; rfl

end Ex
end MI.Cont
