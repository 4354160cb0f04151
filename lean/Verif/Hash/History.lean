import Verif.Hash.Equals
/-!
# Histories of a hashed index

One hashed index on its own, with elements whose values do not change: nodes are inserted, erased, the index is rehashed (the hash
function may throw on the way) and cleared. Changes of values are in `Holds.inPlace`, `Holds.unlink'`; the complete operations of
containers are in `Verif.Cont`.
-/
namespace MI.Hash
open MI

/-- Operations on the index. -/
inductive Op where
  /-- `link_point` and, if it accepts, `link`: hashed_index.hpp:933-968 without the other indices. -/
  | insert (x : Id)
  /-- `unlink(x)`: hashed_index.hpp:970-979 without the other indices. -/
  | erase (x : Id)
  /-- `unchecked_rehash`: the new array, the local header, the number of calls of the hash function that succeed. -/
  | rehash (na : Arr) (cpy : Id) (t : Option Nat)
  /-- `clear_()`: hashed_index.hpp:1015-1023. -/
  | clear
deriving Repr, DecidableEq

/-- The memory, the bucket array and the number of elements. -/
structure State where
  h : Heap
  a : Arr
  size : Nat

/-- One operation; `n` bounds the number of iterations of every loop. -/
def step (n : Nat) (c : Cat) (eq : Id → Id → Bool) (hash : Id → Nat) (hd : Id) (s : State) : Op → Out State
  | .insert x =>
    match linkPoint n c eq (eq x) (hash x) s.h s.a with
    | .ok (.accept pos) => .ok ⟨link c s.h x pos hd, s.a, s.size + 1⟩
    | .ok (.reject _) => .ok s
    | .threw _ => .hang
    | .ub => .ub
    | .hang => .hang
  | .erase x => .ok ⟨unlink c s.h x, s.a, s.size - 1⟩
  | .rehash na cpy t =>
    match rehash c hash s.size t s.h s.a na hd cpy with
    | .ok (h, true) => .ok { s with h := h }
    | .ok (h, false) => .ok { s with h := h, a := na }
    | .threw _ => .hang
    | .ub => .ub
    | .hang => .hang
  | .clear => .ok ⟨clear s.h s.a hd, s.a, 0⟩

/-- A sequence of operations. -/
def run (n : Nat) (c : Cat) (eq : Id → Id → Bool) (hash : Id → Nat) (hd : Id) : List Op → State → Out State
  | [], s => .ok s
  | op :: ops, s =>
    match step n c eq hash hd s op with
    | .ok s => run n c eq hash hd ops s
    | r => r

/-- What an operation does to the elements, up to order. -/
def effect (c : Cat) (eq : Id → Id → Bool) (l : List Id) : Op → List Id
  | .insert x => if c = .uniq ∧ ∃ y ∈ l, eq x y = true then l else x :: l
  | .erase x => l.erase x
  | .rehash _ _ _ => l
  | .clear => []

/-- When an operation may be used: new nodes and arrays are new, erased elements are in the index. -/
def Legal (a : Arr) (hd : Id) (l : List Id) : Op → Prop
  | .insert x => x ≠ 0 ∧ x ∉ hd :: l ∧ (x < a.base ∨ a.endB < x)
  | .erase x => x ∈ l
  | .rehash na cpy _ => 0 < na.size ∧ NewMem a na hd cpy l
  | .clear => True

/-- Every operation of the list is legal when its turn comes; `l` are the elements at the start. -/
def Valid (n : Nat) (c : Cat) (eq : Id → Id → Bool) (hash : Id → Nat) (hd : Id) : List Op → State → List Id → Prop
  | [], _, _ => True
  | op :: ops, s, l => Legal s.a hd l op ∧ ∀ s', step n c eq hash hd s op = .ok s' → Valid n c eq hash hd ops s' (effect c eq l op)

section
variable {c : Cat} {eq : Id → Id → Bool} {hash : Id → Nat} {hd : Id} {n : Nat}

theorem NewMem.perm {a na : Arr} {cpy : Id} {l xs : List Id} (nm : NewMem a na hd cpy l) (p : xs.Perm l) : NewMem a na hd cpy xs :=
  ⟨nm.b0, nm.c0, fun k => nm.cn (by simpa [p.mem_iff] using k), nm.co, nm.cna, fun z hz => nm.xn z (by simpa [p.mem_iff] using hz), nm.ar⟩

theorem step_effect (eh : EqHash eq hash) {s : State} {xs l : List Id} (w : Holds c eq hash s.h s.a hd xs) (sz : s.size = xs.length)
    (p : xs.Perm l) (hn : xs.length ≤ n) (op : Op) (hl : Legal s.a hd l op) :
    ∃ s' xs', step n c eq hash hd s op = .ok s' ∧ Holds c eq hash s'.h s'.a hd xs' ∧ s'.size = xs'.length ∧ xs'.Perm (effect c eq l op) ∧
      xs'.length ≤ xs.length + 1 := by
  cases op with
  | insert x =>
    obtain ⟨x0, xn, xa⟩ := hl
    have fr : FreshId s.a hd xs x := ⟨x0, by simpa [p.mem_iff] using xn, xa⟩
    rcases w.linkPoint eh hn x with ⟨y, ym, cu, ye, k⟩ | ⟨pos, k, k1, u, v, e, -, k3⟩
    · refine ⟨s, xs, by simp [step, k], w, sz, ?_, by omega⟩
      rw [effect, if_pos ⟨cu, y, p.mem_iff.1 ym, ye⟩]
      exact p
    · refine ⟨⟨Hash.link c s.h x pos hd, s.a, s.size + 1⟩, u ++ x :: v, by simp only [step, k], k3 fr, by simp [sz, e]; omega, ?_, by simp [e]; omega⟩
      rw [effect, if_neg (fun q => by
        obtain ⟨cu, y, ym, ye⟩ := q
        rw [k1 cu y (p.mem_iff.2 ym)] at ye
        cases ye)]
      rw [e] at p
      exact List.perm_middle.trans (List.Perm.cons x p)
  | erase x =>
    have hx : x ∈ xs := p.mem_iff.2 hl
    refine ⟨_, xs.erase x, rfl, w.unlink hx, ?_, p.erase x, ?_⟩
    · simp [List.length_erase_of_mem hx, sz]
    · have := List.length_erase_of_mem hx
      omega
  | rehash na cpy t =>
    obtain ⟨ns, nm⟩ := hl
    obtain ⟨h', b, e1, -, e3, e4⟩ := w.rehash (t := t) eh ns (nm.perm p)
    rw [← sz] at e1
    cases b with
    | true => exact ⟨{ s with h := h' }, xs, by simp only [step, e1], e3 rfl, sz, p, by omega⟩
    | false =>
      obtain ⟨xs', k1, k2, -⟩ := e4 rfl
      exact ⟨{ s with h := h', a := na }, xs', by simp only [step, e1], k1, by rw [k2.length_eq]; exact sz, k2.trans p, by rw [k2.length_eq]; omega⟩
  | clear => exact ⟨_, [], rfl, w.clear eq hash, rfl, List.Perm.refl _, by simp⟩

theorem run_effects (eh : EqHash eq hash) : ∀ (ops : List Op) {s : State} {xs l : List Id}, Holds c eq hash s.h s.a hd xs → s.size = xs.length →
    xs.Perm l → xs.length + ops.length ≤ n → Valid n c eq hash hd ops s l →
    ∃ s' xs', run n c eq hash hd ops s = .ok s' ∧ Holds c eq hash s'.h s'.a hd xs' ∧ s'.size = xs'.length ∧ xs'.Perm (ops.foldl (effect c eq) l)
  | [], s, xs, l, w, sz, p, _, _ => ⟨s, xs, rfl, w, sz, p⟩
  | op :: ops, s, xs, l, w, sz, p, hn, hv => by
    simp only [List.length_cons] at hn
    obtain ⟨s1, xs1, e1, w1, sz1, p1, l1⟩ := step_effect (n := n) eh w sz p (by omega) op hv.1
    obtain ⟨s2, xs2, e2, k⟩ := run_effects eh ops w1 sz1 p1 (by omega) (hv.2 s1 e1)
    exact ⟨s2, xs2, by simp only [run, e1, e2], k⟩

end

/-! ## Checking that a history is legal -/

/-- `Legal`, decided. -/
def legalB (a : Arr) (hd : Id) (l : List Id) : Op → Bool
  | .insert x => decide (x ≠ 0 ∧ x ∉ hd :: l ∧ (x < a.base ∨ a.endB < x))
  | .erase x => decide (x ∈ l)
  | .rehash na cpy _ => decide (0 < na.size ∧ 0 < na.base ∧ cpy ≠ 0 ∧ cpy ∉ hd :: l ∧ (cpy < a.base ∨ a.endB < cpy) ∧
      (cpy < na.base ∨ na.endB < cpy) ∧ (∀ z ∈ hd :: l, z < na.base ∨ na.endB < z) ∧ (a.endB < na.base ∨ na.endB < a.base))
  | .clear => true

theorem legal_of {a : Arr} {hd : Id} {l : List Id} {op : Op} (h : legalB a hd l op = true) : Legal a hd l op := by
  cases op with
  | insert x => simpa [legalB, Legal] using h
  | erase x => simpa [legalB, Legal] using h
  | rehash na cpy t =>
    simp only [legalB, decide_eq_true_eq] at h
    obtain ⟨h1, h2, h3, h4, h5, h6, h7, h8⟩ := h
    exact ⟨h1, h2, h3, h4, h5, h6, h7, h8⟩
  | clear => trivial

/-- `Valid`, decided. -/
def validB (n : Nat) (c : Cat) (eq : Id → Id → Bool) (hash : Id → Nat) (hd : Id) : List Op → State → List Id → Bool
  | [], _, _ => true
  | op :: ops, s, l => legalB s.a hd l op &&
    match step n c eq hash hd s op with
    | .ok s => validB n c eq hash hd ops s (effect c eq l op)
    | _ => true

theorem valid_of {n : Nat} {c : Cat} {eq : Id → Id → Bool} {hash : Id → Nat} {hd : Id} : ∀ (ops : List Op) {s : State} {l : List Id},
    validB n c eq hash hd ops s l = true → Valid n c eq hash hd ops s l
  | [], _, _, _ => trivial
  | op :: ops, s, l, h => by
    simp only [validB, Bool.and_eq_true] at h
    refine ⟨legal_of h.1, fun s' e => valid_of ops ?_⟩
    have := h.2
    rwa [e] at this

end MI.Hash
